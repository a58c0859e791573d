import Verif.Policy.Conc
/-!
# Properties C23–C28: the emission schedule

The specification is `Verif/Policy/Spec.lean` (`Spec.supply`, `Spec.reward`).
-/
namespace Nimiq.Policy
open Spec

/-- Package states: the values of the global cache after any history of `SupplyAfter` and `BlockReward` calls. -/
inductive Reachable : List UInt64 → Prop
  | init : Reachable initCache
  | supplyAfter {c c' h r} : Reachable c → Policy.supplyAfter c h = .ok (r, c') → Reachable c'
  | blockReward {c c' h r} : Reachable c → Policy.blockReward c h = .ok (r, c') → Reachable c'

theorem Reachable.good {c} (h : Reachable c) : GoodCache c := by
  induction h with
  | init => exact goodCache_init
  | @supplyAfter c c' h r _ he ih =>
    obtain ⟨r', c'', h1, h2, _⟩ := supplyAfter_eq c ih h
    rw [h1] at he; cases he; exact h2
  | @blockReward c c' h r _ he ih =>
    by_cases h0 : h = 0
    · subst h0; cases he
    · obtain ⟨r', c'', h1, h2, _⟩ := blockReward_eq c ih h h0
      rw [h1] at he; cases he; exact h2

/-- **C24**: whatever happened before, `SupplyAfter(h)` returns the uncached recursion's value (and does not panic). -/
theorem C24_cache_invisible {c} (hc : Reachable c) (h : UInt32) :
    ∃ r c', supplyAfter c h = .ok (r, c') ∧ r.toNat = Spec.supply h.toNat := by
  obtain ⟨r, c', h1, _, h3⟩ := supplyAfter_eq c hc.good h
  exact ⟨r, c', h1, h3⟩

/-- **C24**, history independence spelled out: two histories, same answer. -/
theorem C24_history_independent {c₁ c₂ c₁' c₂' h r₁ r₂} (h1 : Reachable c₁) (h2 : Reachable c₂)
    (e1 : supplyAfter c₁ h = .ok (r₁, c₁')) (e2 : supplyAfter c₂ h = .ok (r₂, c₂')) : r₁ = r₂ := by
  obtain ⟨r, c, a1, a2⟩ := C24_cache_invisible h1 h
  obtain ⟨r', c', b1, b2⟩ := C24_cache_invisible h2 h
  rw [a1] at e1; rw [b1] at e2; cases e1; cases e2
  exact UInt64.toNat_inj.mp (a2.trans b2.symm)

example : ∃ c, Reachable c ∧ c ≠ initCache := by
  obtain ⟨r, c', h1, h2, h3⟩ := supplyAfter_eq initCache goodCache_init 5000
  refine ⟨c', .supplyAfter .init h1, ?_⟩
  intro hc
  subst hc
  have : (supplyAfter initCache 5000).isOk = true := by rw [h1]; rfl
  unfold supplyAfter at h1
  simp only [show startIndex initCache (5000 / supplyCacheInterval) = 0 from rfl,
    show initCache[(0 : UInt32).toNat]? = some initialSupply from rfl] at h1
  injection h1 with h1
  injection h1 with _ h1
  have := congrArg List.length h1
  simp [fillLoop, initCache, supplyCacheInterval] at this

/-- **C23**: bounds and monotonicity of the returned supply. -/
theorem C23_supply_bounds {c₁ c₂ c₁' c₂' h₁ h₂ r₁ r₂} (hc1 : Reachable c₁) (hc2 : Reachable c₂)
    (e1 : supplyAfter c₁ h₁ = .ok (r₁, c₁')) (e2 : supplyAfter c₂ h₂ = .ok (r₂, c₂')) (hle : h₁ ≤ h₂) :
    initialSupply ≤ r₁ ∧ r₁ ≤ r₂ ∧ r₂ ≤ totalSupply := by
  obtain ⟨r, c, a1, a2⟩ := C24_cache_invisible hc1 h₁
  obtain ⟨r', c', b1, b2⟩ := C24_cache_invisible hc2 h₂
  rw [a1] at e1; rw [b1] at e2; cases e1; cases e2
  simp only [UInt64.le_iff_toNat_le, UInt32.le_iff_toNat_le] at *
  rw [a2, b2]
  exact ⟨spec_supply_mono (Nat.zero_le _), spec_supply_mono hle, spec_supply_le_cap _⟩

/-- **C23**, the emission formula itself does not wrap: for any supply up to the cap the uint64 code computes the
mathematical reward and adding it stays within the cap. -/
theorem C23_no_wrap (s : UInt64) (h : UInt32) (hs : s ≤ totalSupply) (h0 : h ≠ 0) :
    (blockRewardBySupply s h).toNat = Spec.reward s.toNat h.toNat ∧
    (s + blockRewardBySupply s h).toNat = s.toNat + Spec.reward s.toNat h.toNat ∧
    s + blockRewardBySupply s h ≤ totalSupply := by
  rw [UInt64.le_iff_toNat_le] at *
  have hs' : s.toNat ≤ cap := hs
  have h1 := reward_toNat s h hs'
  rw [if_neg h0] at h1
  have h2 := spec_reward_le s.toNat h.toNat
  have h3 : (s + blockRewardBySupply s h).toNat = s.toNat + Spec.reward s.toNat h.toNat := by
    rw [UInt64.toNat_add, h1]
    apply Nat.mod_eq_of_lt
    have : cap < 2^64 := by decide
    omega
  refine ⟨h1, h3, ?_⟩
  rw [h3]
  have : totalSupply.toNat = cap := rfl
  omega

example : ∃ s : UInt64, s ≤ totalSupply ∧ blockRewardBySupply s 1 ≠ 0 := ⟨initialSupply, by decide, by decide⟩

/-- **C23**, sharpness: above the cap the formula does wrap. -/
theorem C23_wraps_above_cap : blockRewardBySupply (totalSupply + 1) 1 = 4398046511103 := by decide

/-- **C26**: reward = increment of the supply; panics exactly at height 0. -/
theorem C26_reward_is_increment {c₁ c₂ c₃} (hc1 : Reachable c₁) (hc2 : Reachable c₂) (hc3 : Reachable c₃) (h : UInt32) :
    (blockReward c₁ h = .panic ↔ h = 0) ∧
    (h ≠ 0 → ∃ r s s' c₁' c₂' c₃', blockReward c₁ h = .ok (r, c₁') ∧ supplyAfter c₂ h = .ok (s, c₂') ∧
      supplyAfter c₃ (h - 1) = .ok (s', c₃') ∧ s'.toNat + r.toNat = s.toNat ∧ r = s - s') := by
  constructor
  · constructor
    · intro hp
      apply Classical.byContradiction
      intro h0
      obtain ⟨r, c, h1, _⟩ := blockReward_eq c₁ hc1.good h h0
      rw [h1] at hp; cases hp
    · intro h0; subst h0; rfl
  · intro h0
    obtain ⟨r, c₁', h1, _, hr⟩ := blockReward_eq c₁ hc1.good h h0
    obtain ⟨s, c₂', h2, hs⟩ := C24_cache_invisible hc2 h
    obtain ⟨s', c₃', h3, hs'⟩ := C24_cache_invisible hc3 (h - 1)
    have hpos : 1 ≤ h.toNat := by
      have : h.toNat ≠ 0 := fun hx => h0 (UInt32.toNat_inj.mp hx)
      omega
    have e1 : (h - 1).toNat = h.toNat - 1 := by
      rw [UInt32.toNat_sub_of_le]
      · rfl
      · rw [UInt32.le_iff_toNat_le]; exact hpos
    have key : s'.toNat + r.toNat = s.toNat := by
      rw [hs, hs', hr, e1]
      obtain ⟨k, hk⟩ : ∃ k, h.toNat = k + 1 := ⟨h.toNat - 1, by omega⟩
      rw [hk]; rfl
    refine ⟨r, s, s', c₁', c₂', c₃', h1, h2, h3, key, ?_⟩
    apply UInt64.toNat_inj.mp
    rw [UInt64.toNat_sub_of_le _ _ (by rw [UInt64.le_iff_toNat_le]; omega)]
    omega

/-- **C27**: the block reward never increases. -/
theorem C27_reward_antitone {c₁ c₂ c₁' c₂' h r₁ r₂} (hc1 : Reachable c₁) (hc2 : Reachable c₂)
    (h0 : h ≠ 0) (hmax : h ≠ 4294967295)
    (e1 : blockReward c₁ h = .ok (r₁, c₁')) (e2 : blockReward c₂ (h+1) = .ok (r₂, c₂')) : r₂ ≤ r₁ := by
  have hlt : h.toNat + 1 < 2^32 := by
    have := h.toNat_lt
    have : h.toNat ≠ 4294967295 := fun hx => hmax (UInt32.toNat_inj.mp hx)
    omega
  have hs := succ_toNat h hlt
  have h1' : h + 1 ≠ 0 := by
    intro hx
    have := congrArg UInt32.toNat hx
    rw [hs] at this
    have : (0 : UInt32).toNat = 0 := rfl
    omega
  obtain ⟨r, c, a1, _, a2⟩ := blockReward_eq c₁ hc1.good h h0
  obtain ⟨r', c', b1, _, b2⟩ := blockReward_eq c₂ hc2.good (h+1) h1'
  rw [a1] at e1; rw [b1] at e2; cases e1; cases e2
  rw [UInt64.le_iff_toNat_le, a2, b2, hs]
  obtain ⟨k, hk⟩ : ∃ k, h.toNat = k + 1 := by
    have : h.toNat ≠ 0 := fun hx => h0 (UInt32.toNat_inj.mp hx)
    exact ⟨h.toNat - 1, by omega⟩
  rw [hk]
  show Spec.reward (Spec.supply (k+1)) (k+1+1) ≤ Spec.reward (Spec.supply k) (k+1)
  have hanti := rem_anti (show k ≤ k+1 by omega)
  by_cases t1 : k + 1 + 1 < tailStart
  · rw [reward_pre k (by omega), reward_pre (k+1) t1]
    exact Nat.div_le_div_right hanti
  · rw [reward_tail (k+1) (by omega)]
    by_cases t2 : k + 1 < tailStart
    · rw [reward_pre k t2]
      have hk2 : k ≤ 48692958 := by unfold tailStart at t2; omega
      have h3 := Nat.le_trans rem_low (rem_anti hk2)
      have h4 : 4000 ≤ rem k / 2^22 := by
        rw [Nat.le_div_iff_mul_le (by decide)]; exact h3
      split <;> omega
    · rw [reward_tail k (by omega)]
      split <;> split <;> omega

/-- The hypotheses of C26-C28 hold of the initial cache, at every height but 0 and the last one. -/
example (h : UInt32) (h0 : h ≠ 0) (hmax : h ≠ 4294967295) : ∃ r₁ r₂ c₁ c₂, blockReward initCache h = .ok (r₁, c₁) ∧
    blockReward c₁ (h + 1) = .ok (r₂, c₂) ∧ r₂ ≤ r₁ := by
  obtain ⟨r₁, _, _, c₁, _, _, e1, _⟩ := (C26_reward_is_increment .init .init .init h).2 h0
  have h1 : h + 1 ≠ 0 := by
    intro e; apply hmax
    have := congrArg UInt32.toNat e
    rw [UInt32.toNat_add] at this
    have hl := h.toNat_lt
    refine UInt32.toNat_inj.mp ?_
    simp at this
    show h.toNat = 4294967295
    omega
  obtain ⟨r₂, _, _, c₂, _, _, e2, _⟩ := (C26_reward_is_increment (.blockReward .init e1) .init .init (h + 1)).2 h1
  exact ⟨r₁, r₂, c₁, c₂, e1, e2, C27_reward_antitone .init (.blockReward .init e1) h0 hmax e1 e2⟩

/-- **C28**: from block 52,890,011 on nothing is minted, and the supply stays below, but within 4000 Luna of, the cap. -/
theorem C28_emission_ends {c₁ c₂} (hc1 : Reachable c₁) (hc2 : Reachable c₂) :
    ∃ H : UInt32, ∀ h, H ≤ h →
      (∃ s c', supplyAfter c₁ h = .ok (s, c') ∧ s ≤ totalSupply ∧ totalSupply - s < 4000) ∧
      (H < h → ∃ c', blockReward c₂ h = .ok (0, c')) := by
  refine ⟨52890010, ?_⟩
  intro h hh
  rw [UInt32.le_iff_toNat_le] at hh
  have hh' : endOfEmission ≤ h.toNat := hh
  constructor
  · obtain ⟨s, c', h1, h2⟩ := C24_cache_invisible hc1 h
    have h3 := spec_supply_le_cap h.toNat
    have h4 := rem_end h.toNat hh'
    have hT : totalSupply.toNat = cap := rfl
    have hle : s ≤ totalSupply := by rw [UInt64.le_iff_toNat_le, h2]; exact h3
    refine ⟨s, c', h1, hle, ?_⟩
    rw [UInt64.lt_iff_toNat_lt, UInt64.toNat_sub_of_le _ _ hle, h2, hT]
    exact h4
  · intro hlt
    rw [UInt32.lt_iff_toNat_lt] at hlt
    have hlt' : endOfEmission < h.toNat := hlt
    have h0 : h ≠ 0 := by
      intro hx; subst hx
      have : (0 : UInt32).toNat = 0 := rfl
      omega
    obtain ⟨r, c', h1, _, h2⟩ := blockReward_eq c₂ hc2.good h h0
    obtain ⟨k, hk⟩ : ∃ k, h.toNat = k + 1 := ⟨h.toNat - 1, by omega⟩
    rw [hk] at h2
    rw [show k + 1 - 1 = k by omega, reward_tail k (by unfold tailStart; unfold endOfEmission at hlt'; omega),
      if_neg (by have := rem_end k (by omega); omega)] at h2
    have : r = 0 := UInt64.toNat_inj.mp h2
    subst this
    exact ⟨c', h1⟩

/-! ## C25: concurrent callers -/

/-- The goroutine is at a program point whose next step reads or writes the global cache. -/
def touchesCache : Pc → Bool
  | .locked _ => true      -- policy.go:43-50 reads
  | .append _ _ _ => true  -- policy.go:55 reads and writes
  | _ => false

/-- **C25**, results: in any interleaving of any number of goroutines, each calling `SupplyAfter(heights t)`, every call
that has returned has returned the uncached value for its own height; no call crashed. -/
theorem C25_results (heights : Nat → UInt32) (sched : List Nat) (t : Nat) :
    (∀ h r, (runSched (startSys heights) sched).threads t = .done h r →
      h = heights t ∧ r.toNat = Spec.supply (heights t).toNat) ∧
    (∀ h, (runSched (startSys heights) sched).threads t ≠ .crashed h) := by
  have hi := inv_run _ (inv_start heights) sched
  have hp := hi.pcs t
  have hh := height_run (startSys heights) sched t
  constructor
  · intro h r e
    rw [e] at hp hh
    have : h = heights t := hh
    subst this
    exact ⟨rfl, hp⟩
  · intro h e
    rw [e] at hp; exact hp

/-- **C25**, no data race: in any reachable state a goroutine about to touch the cache holds the lock, so no two are; and a
step from any other program point neither depends on the cache nor changes it. -/
theorem C25_lock_discipline (heights : Nat → UInt32) (sched : List Nat) :
    let s := runSched (startSys heights) sched
    (∀ t, touchesCache (s.threads t) = true → s.lock = some t) ∧
    (∀ t u, touchesCache (s.threads t) = true → touchesCache (s.threads u) = true → t = u) ∧
    (∀ t c, touchesCache (s.threads t) = false →
      stepThread { s with cache := c } t = (stepThread s t).map (fun s' => { s' with cache := c })) ∧
    (∀ t s', touchesCache (s.threads t) = false → stepThread s t = some s' → s'.cache = s.cache) := by
  intro s
  have hi := inv_run _ (inv_start heights) sched
  have hA : ∀ t, touchesCache (s.threads t) = true → s.lock = some t := by
    intro t ht
    apply (hi.lock t).mp
    show (s.threads t).critical = true
    revert ht
    cases s.threads t <;> simp [touchesCache, Pc.critical]
  refine ⟨hA, ?_, ?_, ?_⟩
  · intro t u ht hu
    have := (hA t ht).symm.trans (hA u hu)
    injection this
  · intro t c ht
    unfold stepThread
    simp only
    cases e : s.threads t with
    | init h => cases s.lock <;> simp
    | locked h => simp [e, touchesCache] at ht
    | loop h i v => simp only; split <;> simp
    | append h i v => simp [e, touchesCache] at ht
    | unlocked h v => simp
    | done h r => simp
    | crashed h => simp
  · intro t s' ht hst
    unfold stepThread at hst
    cases e : s.threads t with
    | init h => rw [e] at hst; cases e2 : s.lock <;> simp [e2] at hst; subst hst; rfl
    | locked h => simp [e, touchesCache] at ht
    | loop h i v => rw [e] at hst; simp only at hst; split at hst <;> (injection hst with hst; subst hst; rfl)
    | append h i v => simp [e, touchesCache] at ht
    | unlocked h v => rw [e] at hst; injection hst with hst; subst hst; rfl
    | done h r => rw [e] at hst; cases hst
    | crashed h => rw [e] at hst; cases hst

/-- **C25**, no deadlock: while some call has not returned, some goroutine can move. -/
theorem C25_no_deadlock (heights : Nat → UInt32) (sched : List Nat) (t : Nat)
    (ht : ∀ h r, (runSched (startSys heights) sched).threads t ≠ .done h r) :
    ∃ u s', stepThread (runSched (startSys heights) sched) u = some s' := by
  have hi := inv_run _ (inv_start heights) sched
  generalize runSched (startSys heights) sched = s at *
  have crit : ∀ u, (s.threads u).critical = true → ∃ s', stepThread s u = some s' := by
    intro u hu
    unfold stepThread
    cases e : s.threads u <;> simp_all [Pc.critical]
    · split <;> simp
    · split <;> simp
  cases hl : s.lock with
  | some u =>
    obtain ⟨s', h⟩ := crit u ((hi.lock u).mpr hl)
    exact ⟨u, s', h⟩
  | none =>
    cases e : s.threads t with
    | init h => exact ⟨t, { s with lock := some t, threads := setThread s.threads t (.locked h) }, by unfold stepThread; rw [e]; simp [hl]⟩
    | locked h => exact ⟨t, crit t (by rw [e]; rfl)⟩
    | loop h i v => exact ⟨t, crit t (by rw [e]; rfl)⟩
    | append h i v => exact ⟨t, crit t (by rw [e]; rfl)⟩
    | unlocked h v => exact ⟨t, _, by unfold stepThread; rw [e]⟩
    | done h r => exact absurd e (ht h r)
    | crashed h =>
      have := hi.pcs t
      rw [e] at this; exact this.elim

/-- How many real (non-blocked) steps goroutine `t` takes in a schedule. -/
def stepsTaken (t : Nat) : Sys → List Nat → Nat
  | _, [] => 0
  | s, u :: us =>
    match stepThread s u with
    | some s' => (if u = t then 1 else 0) + stepsTaken t s' us
    | none => stepsTaken t s us

/-- Steps left at each program point. -/
def left : Pc → Nat
  | .init h => 2 * (h / supplyCacheInterval).toNat + 5
  | .locked h => 2 * (h / supplyCacheInterval).toNat + 4
  | .loop h i _ => 2 * ((h / supplyCacheInterval).toNat - i.toNat) + 3
  | .append h i _ => 2 * ((h / supplyCacheInterval).toNat - i.toNat) + 2
  | .unlocked _ _ => 1
  | .done _ _ => 0
  | .crashed _ => 0

theorem left_step {s s' : Sys} (hi : Inv s) (t : Nat) (h : stepThread s t = some s') :
    left (s'.threads t) < left (s.threads t) := by
  have hp := hi.pcs t
  unfold stepThread at h
  split at h
  · rename_i e
    split at h
    · injection h with h; subst h; simp [e, setThread_same, left]
    · cases h
  · rename_i hh e
    obtain ⟨hs1, hs2, hs3⟩ := startIndex_spec s.cache hi.cache (hh / supplyCacheInterval)
    simp only [List.getElem?_eq_getElem hs1] at h
    injection h with h; subst h
    simp only [setThread_same, e, left]; omega
  · rename_i hh i sup e
    split at h
    · injection h with h; subst h; simp [e, setThread_same, left]
    · injection h with h; subst h; simp only [setThread_same, e, left]; omega
  · rename_i hh i sup e
    rw [e] at hp
    obtain ⟨h1, h2, h3⟩ := hp
    have hd := divInterval_le hh
    have hi1 := succ_toNat i (by omega)
    injection h with h; subst h; simp only [setThread_same, e, left, hi1]; omega
  · rename_i e
    injection h with h; subst h; simp only [setThread_same, e, left]; omega
  · cases h
  · cases h

/-- **C25**, each call finishes after a bounded number of its own steps, whatever the others do. -/
theorem C25_bounded_steps (heights : Nat → UInt32) (sched : List Nat) (t : Nat) :
    stepsTaken t (startSys heights) sched ≤ 2 * ((heights t).toNat / 5000) + 5 := by
  have key : ∀ s, Inv s → stepsTaken t s sched ≤ left (s.threads t) := by
    induction sched with
    | nil => intro s _; exact Nat.zero_le _
    | cons u us ih =>
      intro s hi
      simp only [stepsTaken]
      split
      · rename_i s' h
        have h1 := ih s' (inv_step hi u h)
        by_cases hu : u = t
        · subst hu
          have := left_step hi u h
          rw [if_pos rfl]; omega
        · rw [if_neg hu, ← (step_threads u h).2 t (fun hx => hu hx.symm)]; omega
      · exact ih s hi
  have := key _ (inv_start heights)
  have e : left ((startSys heights).threads t) = 2 * ((heights t).toNat / 5000) + 5 := by
    show 2 * (heights t / supplyCacheInterval).toNat + 5 = _
    rw [divInterval]
  omega

/-- Non-vacuity: two goroutines, an interleaving in which goroutine 1 waits for the lock, and both return. -/
example : (runSched (startSys fun _ => 3) [0, 1, 0, 1, 0, 1, 1, 0, 1, 1, 1]).threads 0 = .done 3 252001321792287 ∧
    (runSched (startSys fun _ => 3) [0, 1, 0, 1, 0, 1, 1, 0, 1, 1, 1]).threads 1 = .done 3 252001321792287 := by
  decide

/-! ## SupplyBetween -/

/-- Emission over adjacent ranges composes (the property the cache relies on). -/
theorem C24_supplyBetween_split (s : UInt64) (a b c : UInt32) (hab : a ≤ b) (hbc : b ≤ c) :
    supplyBetween (supplyBetween s a b) b c = supplyBetween s a c := by
  rw [UInt32.le_iff_toNat_le] at *
  have gen : ∀ n m (i : UInt32) (s : UInt64), i.toNat + n < 2^32 →
      supplyLoop m (i + UInt32.ofNat n) (supplyLoop n i s) = supplyLoop (n + m) i s := by
    intro n
    induction n with
    | zero => intro m i s _; simp [supplyLoop]
    | succ n ih =>
      intro m i s hn
      have hi1 := succ_toNat i (by omega)
      have e : n + 1 + m = (n + m) + 1 := by omega
      rw [e]
      simp only [supplyLoop]
      rw [← ih m (i+1) _ (by omega)]
      congr 1
      apply UInt32.toNat_inj.mp
      simp only [UInt32.toNat_add, UInt32.toNat_ofNat', UInt32.toNat_one]
      omega
  unfold supplyBetween
  have hb := b.toNat_lt
  have := gen (b.toNat - a.toNat) (c.toNat - b.toNat) a s (by omega)
  rw [show b.toNat - a.toNat + (c.toNat - b.toNat) = c.toNat - a.toNat by omega] at this
  rw [← this]
  congr 1
  apply UInt32.toNat_inj.mp
  simp only [UInt32.toNat_add, UInt32.toNat_ofNat']
  omega

example : supplyBetween (supplyBetween initialSupply 0 100) 100 5000 = supplyBetween initialSupply 0 5000 :=
  C24_supplyBetween_split _ _ _ _ (by decide) (by decide)

end Nimiq.Policy
