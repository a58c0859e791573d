import Verif.Policy.Emission
/-! # `SupplyAfter` at every height, and the interleaving semantics -/
namespace Nimiq.Policy
open Spec

theorem before_max (n : Nat) (hn : n = 4294965000) (h : Nat) (hh : h = 4294967295) : before n = Spec.supply h := by
  obtain ⟨m, rfl⟩ : ∃ m, n = m + 1 := ⟨n - 1, by omega⟩
  show Spec.supply m = Spec.supply h
  rw [supply_end m (by unfold endOfEmission; omega), supply_end h (by unfold endOfEmission; omega)]

theorem final_step_all (h : UInt32) (s : UInt64)
    (hs : s.toNat = before (5000 * (h / supplyCacheInterval).toNat)) :
    (supplyBetween s ((h / supplyCacheInterval) * supplyCacheInterval) (h + 1)).toNat = Spec.supply h.toNat := by
  by_cases hh : h.toNat + 1 < 2^32
  · exact final_step h hh s hs
  · have hmax : h = 4294967295 := by
      apply UInt32.toNat_inj.mp
      have : (4294967295 : UInt32).toNat = 4294967295 := rfl
      have := h.toNat_lt
      omega
    have hl : h.toNat = 4294967295 := by rw [hmax]; rfl
    have h0 : supplyBetween s ((h / supplyCacheInterval) * supplyCacheInterval) (h + 1) = s := by
      rw [hmax]; rfl
    rw [h0, hs]
    exact before_max _ (by rw [divInterval, hl]) _ hl

theorem supplyAfter_eq (c : List UInt64) (hc : GoodCache c) (h : UInt32) :
    ∃ r c', supplyAfter c h = .ok (r, c') ∧ GoodCache c' ∧ r.toNat = Spec.supply h.toNat := by
  obtain ⟨hs1, hs2, hs3⟩ := startIndex_spec c hc (h / supplyCacheInterval)
  have hd := divInterval_le h
  have hget : c[(startIndex c (h / supplyCacheInterval)).toNat]? = some (c[(startIndex c (h / supplyCacheInterval)).toNat]) :=
    List.getElem?_eq_getElem hs1
  have hfl := fillLoop_good ((h / supplyCacheInterval).toNat - (startIndex c (h / supplyCacheInterval)).toNat)
    (startIndex c (h / supplyCacheInterval)) (c[(startIndex c (h / supplyCacheInterval)).toNat]) c hc
    (hc.2.2 _ hs1) (by intro hne; exact hs3 (by omega)) (by omega)
  have e : (startIndex c (h / supplyCacheInterval)).toNat +
      ((h / supplyCacheInterval).toNat - (startIndex c (h / supplyCacheInterval)).toNat)
      = (h / supplyCacheInterval).toNat := by omega
  rw [e] at hfl
  unfold supplyAfter
  simp only [hget]
  exact ⟨_, _, rfl, hfl.2, final_step_all h _ hfl.1⟩

theorem blockReward_eq (c : List UInt64) (hc : GoodCache c) (h : UInt32) (h0 : h ≠ 0) :
    ∃ r c', blockReward c h = .ok (r, c') ∧ GoodCache c' ∧
      r.toNat = Spec.reward (Spec.supply (h.toNat - 1)) h.toNat := by
  have hn : ¬ h < 1 := by
    rw [UInt32.lt_iff_toNat_lt]
    intro hx
    apply h0; apply UInt32.toNat_inj.mp
    have : (1 : UInt32).toNat = 1 := rfl
    have : (0 : UInt32).toNat = 0 := rfl
    omega
  have h1 : (h - 1).toNat = h.toNat - 1 := by
    rw [UInt32.toNat_sub_of_le]
    · rfl
    · rw [UInt32.le_iff_toNat_le]; rw [UInt32.lt_iff_toNat_lt] at hn; omega
  obtain ⟨r, c', he, hg, hr⟩ := supplyAfter_eq c hc (h - 1)
  unfold blockReward
  rw [if_neg hn, he]
  refine ⟨_, _, rfl, hg, ?_⟩
  rw [reward_toNat r h (by rw [hr]; exact spec_supply_le_cap _), if_neg h0, hr, h1]

/-! ## Goroutines -/

def Pc.height : Pc → UInt32
  | .init h | .locked h | .loop h _ _ | .append h _ _ | .unlocked h _ | .done h _ | .crashed h => h

/-- What holds of a goroutine at each program point, given the cache. -/
def PcOk (c : List UInt64) : Pc → Prop
  | .init _ => True
  | .locked _ => True
  | .loop h i s => i.toNat ≤ (h / supplyCacheInterval).toNat ∧ s.toNat = before (5000 * i.toNat) ∧
      (i.toNat < (h / supplyCacheInterval).toNat → c.length = i.toNat + 1)
  | .append h i s => i.toNat < (h / supplyCacheInterval).toNat ∧ c.length = i.toNat + 1 ∧
      s.toNat = before (5000 * (i.toNat + 1))
  | .unlocked h s => s.toNat = before (5000 * (h / supplyCacheInterval).toNat)
  | .done h r => r.toNat = Spec.supply h.toNat
  | .crashed _ => False

/-- Cache-independent program points. -/
theorem PcOk.frame {c c' : List UInt64} {p : Pc} (hp : PcOk c p) (hn : p.critical = false) : PcOk c' p := by
  cases p <;> simp_all [PcOk, Pc.critical]

structure Inv (s : Sys) : Prop where
  cache : GoodCache s.cache
  lock : ∀ t, (s.threads t).critical = true ↔ s.lock = some t
  pcs : ∀ t, PcOk s.cache (s.threads t)

theorem inv_start (hs : Nat → UInt32) : Inv (startSys hs) :=
  ⟨goodCache_init, fun t => by simp [startSys, Pc.critical], fun t => trivial⟩

theorem setThread_same (f : Nat → Pc) (t : Nat) (p : Pc) : setThread f t p t = p := by simp [setThread]
theorem setThread_ne (f : Nat → Pc) {t u : Nat} (p : Pc) (h : u ≠ t) : setThread f t p u = f u := by simp [setThread, h]

/-- Generic step: thread `t` moves to `p`, lock becomes `l`, cache becomes `c`. -/
theorem inv_move {s : Sys} (hi : Inv s) (t : Nat) (p : Pc) (l : Option Nat) (c : List UInt64)
    (hc : GoodCache c) (hp : PcOk c p) (hcl : p.critical = true ↔ l = some t)
    (hother : ∀ u, u ≠ t → (s.lock = some u ↔ l = some u))
    (hfr : c = s.cache ∨ s.lock = some t) :
    Inv { cache := c, lock := l, threads := setThread s.threads t p } := by
  refine ⟨hc, ?_, ?_⟩
  · intro u
    by_cases h : u = t
    · subst h; simpa [setThread_same] using hcl
    · simp only [setThread_ne _ _ h]
      rw [hi.lock u]; exact hother u h
  · intro u
    by_cases h : u = t
    · subst h; simpa [setThread_same] using hp
    · simp only [setThread_ne _ _ h]
      rcases hfr with h1 | h1
      · subst h1; exact hi.pcs u
      · apply (hi.pcs u).frame
        have := hi.lock u
        rw [h1] at this
        cases hcr : (s.threads u).critical with
        | false => rfl
        | true => exact absurd (Option.some.inj (this.mp hcr)).symm h

theorem inv_step {s s' : Sys} (hi : Inv s) (t : Nat) (h : stepThread s t = some s') : Inv s' := by
  have hp := hi.pcs t
  have hl := hi.lock t
  unfold stepThread at h
  split at h
  · rename_i hh e
    split at h
    · rename_i e2
      injection h with h; subst h
      refine inv_move hi t _ (some t) s.cache hi.cache trivial (by simp [Pc.critical]) ?_ (Or.inl rfl)
      intro u hu; rw [e2]; simp; exact fun hx => hu hx.symm
    · cases h
  · rename_i hh e
    rw [e] at hp hl
    have hlock := hl.mp rfl
    obtain ⟨hs1, hs2, hs3⟩ := startIndex_spec s.cache hi.cache (hh / supplyCacheInterval)
    simp only [List.getElem?_eq_getElem hs1] at h
    injection h with h; subst h
    exact inv_move hi t _ s.lock s.cache hi.cache ⟨hs2, hi.cache.2.2 _ hs1, hs3⟩ (by simp [Pc.critical, hlock])
      (fun _ _ => Iff.rfl) (Or.inl rfl)
  · rename_i hh i sup e
    rw [e] at hp hl
    have hlock := hl.mp rfl
    obtain ⟨h1, h2, h3⟩ := hp
    have hd := divInterval_le hh
    split at h
    · rename_i hlt
      rw [UInt32.lt_iff_toNat_lt] at hlt
      injection h with h; subst h
      exact inv_move hi t _ s.lock s.cache hi.cache ⟨hlt, h3 hlt, fill_step sup i (by omega) h2⟩
        (by simp [Pc.critical, hlock]) (fun _ _ => Iff.rfl) (Or.inl rfl)
    · rename_i hlt
      rw [UInt32.lt_iff_toNat_lt] at hlt
      injection h with h; subst h
      refine inv_move hi t _ none s.cache hi.cache ?_ (by simp [Pc.critical]) ?_ (Or.inl rfl)
      · simp only [PcOk]; rw [h2]; congr 2; omega
      · intro u hu; rw [hlock]; simp; exact fun hx => hu hx.symm
  · rename_i hh i sup e
    rw [e] at hp hl
    have hlock := hl.mp rfl
    obtain ⟨h1, h2, h3⟩ := hp
    have hd := divInterval_le hh
    injection h with h; subst h
    have hi1 := succ_toNat i (by omega)
    refine inv_move hi t _ s.lock _ (goodCache_append hi.cache sup (by rw [h2]; exact h3) (by omega)) ?_
      (by simp [Pc.critical, hlock]) (fun _ _ => Iff.rfl) (Or.inr hlock)
    simp only [PcOk, hi1, List.length_append, List.length_singleton]
    exact ⟨by omega, h3, by omega⟩
  · rename_i hh sup e
    rw [e] at hp hl
    injection h with h; subst h
    refine inv_move hi t _ s.lock s.cache hi.cache (final_step_all hh sup hp) ?_ (fun _ _ => Iff.rfl) (Or.inl rfl)
    have : s.lock ≠ some t := fun hx => by simpa [Pc.critical] using hl.mpr hx
    simpa [Pc.critical] using this
  · cases h
  · cases h

theorem inv_run (s : Sys) (hi : Inv s) (sched : List Nat) : Inv (runSched s sched) := by
  induction sched generalizing s with
  | nil => exact hi
  | cons t ts ih =>
    apply ih
    cases h : stepThread s t with
    | none => exact hi
    | some s' => exact inv_step hi t h

/-- A step changes only the moving goroutine's program point, and not the height it was called with. -/
theorem step_threads {s s' : Sys} (t : Nat) (h : stepThread s t = some s') :
    (s'.threads t).height = (s.threads t).height ∧ ∀ u, u ≠ t → s'.threads u = s.threads u := by
  unfold stepThread at h
  split at h <;> rename_i e <;> (try simp only [] at h) <;> (try split at h) <;> (try cases h) <;>
    simp_all [setThread, Pc.height]

theorem height_run (s : Sys) (sched : List Nat) (t : Nat) :
    ((runSched s sched).threads t).height = (s.threads t).height := by
  induction sched generalizing s with
  | nil => rfl
  | cons u us ih =>
    rw [runSched, ih]
    cases h : stepThread s u with
    | none => rfl
    | some s' =>
      obtain ⟨h1, h2⟩ := step_threads u h
      by_cases hu : t = u
      · subst hu; exact h1
      · simp only [Option.getD_some]; rw [h2 t hu]

end Nimiq.Policy
