import Verif.Policy.Props
/-!
# C114: the work and the memory of the supply cache

The functions of policy.go once more, counting how often the reward of a height is computed (`BlockRewardBySupply`); erasing the
count gives the functions of `Policy/Model.lean` (`C114_faithful`).
-/
namespace Nimiq.Policy

/-- policy.go:62-67 `SupplyBetween`, counting -/
def supplyLoopC : Nat → UInt32 → UInt64 → Nat → UInt64 × Nat
  | 0, _, s, k => (s, k)
  | n+1, i, s, k => supplyLoopC n (i+1) (s + blockRewardBySupply s i) (k + 1)

/-- policy.go:62-67 `SupplyBetween`, counting -/
def supplyBetweenC (supply : UInt64) (startHeight endHeight : UInt32) (k : Nat) : UInt64 × Nat :=
  supplyLoopC (endHeight.toNat - startHeight.toNat) startHeight supply k

/-- policy.go:51-56, counting -/
def fillLoopC : Nat → UInt32 → UInt64 → List UInt64 → Nat → UInt64 × List UInt64 × Nat
  | 0, _, s, c, k => (s, c, k)
  | n+1, i, s, c, k =>
    let startHeight := i * supplyCacheInterval
    let endHeight := startHeight + supplyCacheInterval
    let r := supplyBetweenC s startHeight endHeight k
    fillLoopC n (i+1) r.1 (c ++ [r.1]) r.2

/-- policy.go:38-60 `SupplyAfter`, counting -/
def supplyAfterC (cache : List UInt64) (height : UInt32) (k : Nat) : Out (UInt64 × List UInt64 × Nat) :=
  let endI := height / supplyCacheInterval
  let startI := startIndex cache endI
  match cache[startI.toNat]? with
  | none => .panic
  | some supply =>
    let (supply, cache, k) := fillLoopC (endI.toNat - startI.toNat) startI supply cache k
    let r := supplyBetweenC supply (endI * supplyCacheInterval) (height + 1) k
    .ok (r.1, cache, r.2)

/-- policy.go:25-31 `BlockReward`, counting -/
def blockRewardC (cache : List UInt64) (height : UInt32) (k : Nat) : Out (UInt64 × List UInt64 × Nat) :=
  if height < 1 then .panic
  else
    match supplyAfterC cache (height - 1) k with
    | .ok (supply, cache, k) => .ok (blockRewardBySupply supply height, cache, k + 1)
    | .err e => .err e
    | .panic => .panic

/-! ## Erasing the count -/

theorem supplyLoopC_eq (n : Nat) (i : UInt32) (s : UInt64) (k : Nat) : supplyLoopC n i s k = (supplyLoop n i s, k + n) := by
  induction n generalizing i s k with
  | zero => rfl
  | succ n ih => rw [supplyLoopC, ih, supplyLoop]; congr 1; omega

theorem supplyBetweenC_eq (s : UInt64) (a b : UInt32) (k : Nat) :
    supplyBetweenC s a b k = (supplyBetween s a b, k + (b.toNat - a.toNat)) := supplyLoopC_eq _ _ _ _

/-- The number of heights the filling loop goes through. -/
def fillCost : Nat → UInt32 → Nat
  | 0, _ => 0
  | n+1, i => ((i * supplyCacheInterval + supplyCacheInterval).toNat - (i * supplyCacheInterval).toNat) + fillCost n (i + 1)

theorem fillLoopC_eq (n : Nat) (i : UInt32) (s : UInt64) (c : List UInt64) (k : Nat) :
    fillLoopC n i s c k = ((fillLoop n i s c).1, (fillLoop n i s c).2, k + fillCost n i) := by
  induction n generalizing i s c k with
  | zero => rfl
  | succ n ih =>
    simp only [fillLoopC, supplyBetweenC_eq, ih, fillLoop, fillCost]
    congr 2; omega

theorem fillLoop_length (n : Nat) (i : UInt32) (s : UInt64) (c : List UInt64) : (fillLoop n i s c).2.length = c.length + n := by
  induction n generalizing i s c with
  | zero => rfl
  | succ n ih => rw [fillLoop, ih]; simp; omega

theorem fillCost_le (n : Nat) (i : UInt32) : fillCost n i ≤ 5000 * n := by
  induction n generalizing i with
  | zero => simp [fillCost]
  | succ n ih =>
    have h1 := ih (i + 1)
    have h2 : (i * supplyCacheInterval + supplyCacheInterval).toNat ≤ (i * supplyCacheInterval).toNat + 5000 := by
      rw [UInt32.toNat_add]
      have : supplyCacheInterval.toNat = 5000 := rfl
      rw [this]
      exact Nat.mod_le _ _
    simp only [fillCost]
    omega

/-- C114. Counting does not change what is computed. -/
theorem C114_faithful (cache : List UInt64) (height : UInt32) (k : Nat) :
    (∀ r c, supplyAfter cache height = .ok (r, c) ↔ ∃ k', supplyAfterC cache height k = .ok (r, c, k')) ∧
    (∀ r c, blockReward cache height = .ok (r, c) ↔ ∃ k', blockRewardC cache height k = .ok (r, c, k')) := by
  have key : ∀ height, supplyAfterC cache height k = match supplyAfter cache height with
      | .ok (r, c) => .ok (r, c, k + fillCost ((height / supplyCacheInterval).toNat -
          (startIndex cache (height / supplyCacheInterval)).toNat) (startIndex cache (height / supplyCacheInterval)) +
          ((height + 1).toNat - (height / supplyCacheInterval * supplyCacheInterval).toNat))
      | .err e => .err e
      | .panic => .panic := by
    intro height
    unfold supplyAfterC supplyAfter
    simp only [fillLoopC_eq, supplyBetweenC_eq]
    cases cache[(startIndex cache (height / supplyCacheInterval)).toNat]? <;> rfl
  constructor
  · intro r c
    rw [key]
    cases supplyAfter cache height with
    | ok p => obtain ⟨a, b⟩ := p; simp
    | err e => simp
    | panic => simp
  · intro r c
    unfold blockReward blockRewardC
    by_cases h : height < 1
    · simp [h]
    · rw [if_neg h, if_neg h, key]
      cases supplyAfter cache (height - 1) with
      | ok p => obtain ⟨a, b⟩ := p; simp
      | err e => simp
      | panic => simp

/-! ## One call -/

/-- C114. One call of SupplyAfter computes at most 5000 rewards, plus 5000 for every cache slot it adds; it adds exactly the slots
that are missing up to its height. -/
theorem C114_one {c : List UInt64} (hc : Reachable c) (h : UInt32) (k : Nat) :
    ∃ r c' k', supplyAfterC c h k = .ok (r, c', k') ∧ k' ≤ k + 5000 + 5000 * (c'.length - c.length) ∧
      c'.length = max c.length (h.toNat / 5000 + 1) := by
  obtain ⟨h1, h2, h3⟩ := startIndex_spec c hc.good (h / supplyCacheInterval)
  have hd := divInterval h
  have hlt := h.toNat_lt
  unfold supplyAfterC
  simp only [List.getElem?_eq_getElem h1, fillLoopC_eq, supplyBetweenC_eq]
  refine ⟨_, _, _, rfl, ?_, ?_⟩
  · rw [fillLoop_length]
    have h4 := fillCost_le ((h / supplyCacheInterval).toNat - (startIndex c (h / supplyCacheInterval)).toNat)
      (startIndex c (h / supplyCacheInterval))
    have h5 : (h / supplyCacheInterval * supplyCacheInterval).toNat = 5000 * (h.toNat / 5000) := by
      rw [mulInterval _ (by omega), hd]
    have h6 : (h + 1).toNat ≤ h.toNat + 1 := by
      rw [UInt32.toNat_add]; exact Nat.mod_le _ _
    rw [h5]
    omega
  · rw [fillLoop_length]
    by_cases hlt : (startIndex c (h / supplyCacheInterval)).toNat < (h / supplyCacheInterval).toNat
    · have := h3 hlt
      omega
    · omega

/-! ## Histories -/

/-- A call of the emission schedule. -/
inductive Ask
  | supply (height : UInt32)
  | reward (height : UInt32)

/-- The height whose supply is needed. -/
def Ask.height : Ask → Nat
  | .supply h => h.toNat
  | .reward h => h.toNat - 1

/-- A history of calls; calls that panic (the reward of height 0) have no effect. The result is the cache and the number of
rewards computed. -/
def asks : List Ask → List UInt64 × Nat → List UInt64 × Nat
  | [], s => s
  | .supply h :: l, s =>
    match supplyAfterC s.1 h s.2 with
    | .ok (_, c, k) => asks l (c, k)
    | _ => asks l s
  | .reward h :: l, s =>
    match blockRewardC s.1 h s.2 with
    | .ok (_, c, k) => asks l (c, k)
    | _ => asks l s

/-- The largest height asked for. -/
def highest (l : List Ask) : Nat := (l.map Ask.height).foldr max 0

theorem asks_bound (l : List Ask) {c : List UInt64} (hc : Reachable c) (k : Nat) :
    (asks l (c, k)).2 ≤ k + 5001 * l.length + 5000 * ((asks l (c, k)).1.length - c.length) ∧
      c.length ≤ (asks l (c, k)).1.length ∧ (asks l (c, k)).1.length ≤ max c.length (highest l / 5000 + 1) ∧
      Reachable (asks l (c, k)).1 := by
  induction l generalizing c k with
  | nil => exact ⟨by simp [asks], by simp [asks], Nat.le_max_left _ _, hc⟩
  | cons a l ih =>
    have hh : highest (a :: l) = max a.height (highest l) := rfl
    have step : ∀ (c' : List UInt64) (k' j : Nat), Reachable c' → k' ≤ k + 5001 + 5000 * (c'.length - c.length) →
        c'.length = max c.length (j / 5000 + 1) → j ≤ a.height →
        (asks l (c', k')).2 ≤ k + 5001 * (l.length + 1) + 5000 * ((asks l (c', k')).1.length - c.length) ∧
        c.length ≤ (asks l (c', k')).1.length ∧ (asks l (c', k')).1.length ≤ max c.length (highest (a :: l) / 5000 + 1) ∧
        Reachable (asks l (c', k')).1 := by
      intro c' k' j hr hk hl hj
      obtain ⟨i1, i2, i3, i4⟩ := ih hr k'
      have hj2 : j / 5000 ≤ highest (a :: l) / 5000 := Nat.div_le_div_right (by omega)
      have hj3 : highest l / 5000 ≤ highest (a :: l) / 5000 := Nat.div_le_div_right (by omega)
      exact ⟨by omega, by omega, by omega, i4⟩
    have skip : (asks l (c, k)).2 ≤ k + 5001 * (l.length + 1) + 5000 * ((asks l (c, k)).1.length - c.length) ∧
        c.length ≤ (asks l (c, k)).1.length ∧ (asks l (c, k)).1.length ≤ max c.length (highest (a :: l) / 5000 + 1) ∧
        Reachable (asks l (c, k)).1 := by
      obtain ⟨i1, i2, i3, i4⟩ := ih hc k
      have hj3 : highest l / 5000 ≤ highest (a :: l) / 5000 := Nat.div_le_div_right (by omega)
      exact ⟨by omega, by omega, by omega, i4⟩
    rw [List.length_cons]
    cases a with
    | supply h =>
      obtain ⟨r, c', k', e1, e2, e3⟩ := C114_one hc h k
      have hr : Reachable c' := .supplyAfter hc (((C114_faithful c h k).1 r c').mpr ⟨k', e1⟩)
      simp only [asks, e1]
      exact step c' k' h.toNat hr (by omega) e3 (Nat.le_refl _)
    | reward h =>
      by_cases h0 : h < 1
      · have e : blockRewardC c h k = .panic := by unfold blockRewardC; rw [if_pos h0]
        simp only [asks, e]
        exact skip
      · obtain ⟨r, c', k', e1, e2, e3⟩ := C114_one hc (h - 1) k
        have hr : Reachable c' := .supplyAfter hc (((C114_faithful c (h - 1) k).1 r c').mpr ⟨k', e1⟩)
        have e : blockRewardC c h k = .ok (blockRewardBySupply r h, c', k' + 1) := by
          unfold blockRewardC; rw [if_neg h0, e1]
        have hpred : (h - 1).toNat = h.toNat - 1 := by
          rw [UInt32.not_lt, UInt32.le_iff_toNat_le] at h0
          rw [UInt32.toNat_sub_of_le _ _ (by rw [UInt32.le_iff_toNat_le]; exact h0)]
          rfl
        simp only [asks, e]
        exact step c' (k' + 1) (h - 1).toNat hr (by omega) e3 (by rw [hpred]; exact Nat.le_refl _)

/-- C114. Any number of calls of SupplyAfter and BlockReward, in any order and for any heights, compute at most 5001 rewards per call
and one more for every height up to the largest one asked for; the cache has at most one entry per 5000 heights. -/
theorem C114_history (l : List Ask) :
    (asks l (initCache, 0)).2 ≤ 5001 * l.length + highest l ∧
      (asks l (initCache, 0)).1.length ≤ highest l / 5000 + 1 := by
  obtain ⟨h1, h2, h3, _⟩ := asks_bound l .init 0
  have h0 : initCache.length = 1 := rfl
  rw [h0] at h1 h2 h3
  constructor <;> omega

/-- C114. The cache never has more than 858994 entries. -/
theorem C114_memory (l : List Ask) : (asks l (initCache, 0)).1.length ≤ 858994 :=
  (asks_bound l .init 0).2.2.2.good.2.1

/-- The first reward after 12000 heights fills two slots. -/
example : ∃ r c, blockRewardC initCache 12001 0 = .ok (r, c, 12002) ∧ c.length = 3 := by
  have hs : startIndex initCache ((12001 - 1 : UInt32) / supplyCacheInterval) = 0 := by decide
  have hg : initCache[(0 : UInt32).toNat]? = some initialSupply := rfl
  have e1 : ((12001 - 1 : UInt32) / supplyCacheInterval).toNat - (0 : UInt32).toNat = 2 := by decide
  have e2 : fillCost 2 0 = 10000 := by decide
  have e3 : ((12001 - 1 : UInt32) + 1).toNat - ((12001 - 1 : UInt32) / supplyCacheInterval * supplyCacheInterval).toNat = 2001 := by
    decide
  refine ⟨blockRewardBySupply (supplyBetween (fillLoop 2 0 initialSupply initCache).1
    ((12001 - 1 : UInt32) / supplyCacheInterval * supplyCacheInterval) (12001 - 1 + 1)) 12001,
    (fillLoop 2 0 initialSupply initCache).2, ?_, ?_⟩
  · unfold blockRewardC supplyAfterC
    rw [if_neg (by decide)]
    simp only [hs, hg, fillLoopC_eq, supplyBetweenC_eq, e1, e2, e3]
  · rw [fillLoop_length]; rfl

end Nimiq.Policy
