import Verif.Accounts.Steps
/-!
# The prune phase, the inherents, and the result of a successful Push in full
-/
namespace Nimiq.Accounts
open Beserial Wire

/-! ## The prune map -/

theorem PruneMap.get_nil (a : Addr) : PruneMap.get [] a = none := rfl

theorem PruneMap.get_del (pm : PruneMap) (k a : Addr) : (pm.del k).get a = if a = k then none else pm.get a := by
  unfold PruneMap.get PruneMap.del
  by_cases h : a = k
  · subst h
    rw [if_pos rfl]
    have : (pm.filter fun e => decide (e.1 ≠ a)).find? (fun e => decide (e.1 = a)) = none := by
      rw [List.find?_eq_none]
      intro x hx
      have := (List.mem_filter.mp hx).2
      simpa using this
    rw [this]; rfl
  · rw [if_neg h]
    congr 1
    induction pm with
    | nil => rfl
    | cons e es ih =>
      by_cases he : e.1 = k
      · rw [List.filter_cons_of_neg (by simp [he])]
        rw [List.find?_cons_of_neg (by simp only [decide_eq_true_eq]; intro h2; exact h (h2.symm.trans he)), ih]
      · rw [List.filter_cons_of_pos (by simpa using he)]
        by_cases ha : e.1 = a
        · rw [List.find?_cons_of_pos (by simpa using ha), List.find?_cons_of_pos (by simpa using ha)]
        · rw [List.find?_cons_of_neg (by simpa using ha), List.find?_cons_of_neg (by simpa using ha), ih]

theorem PruneMap.get_put (pm : PruneMap) (k a : Addr) (v : Option Account) :
    (pm.put k v).get a = if a = k then some v else pm.get a := by
  by_cases h : a = k
  · subst h
    simp [PruneMap.put, PruneMap.get]
  · rw [if_neg h]
    have : (pm.put k v).get a = (pm.del k).get a := by
      unfold PruneMap.put PruneMap.get
      rw [List.find?_cons_of_neg (by simpa using Ne.symm h)]
    rw [this, PruneMap.get_del, if_neg h]

theorem PruneMap.eq_nil {pm : PruneMap} (h : ∀ a, pm.get a = none) : pm = [] := by
  cases pm with
  | nil => rfl
  | cons e es =>
    have := h e.1
    simp [PruneMap.get] at this

/-- The account quoted last for an address in the prune list of a block. -/
def quoted (pruned : List (Addr × Option Account)) (a : Addr) : Option (Option Account) :=
  ((pruned.filter fun e => e.1 = a).getLast?).map (·.2)

theorem pruneMap_get (pruned : List (Addr × Option Account)) (a : Addr) : (pruneMap pruned).get a = quoted pruned a := by
  unfold pruneMap
  have key : ∀ (l : List (Addr × Option Account)) (pm : PruneMap),
      (l.foldl (fun m e => m.put e.1 e.2) pm).get a = (quoted l a).or (pm.get a) := by
    intro l
    induction l with
    | nil => intro pm; rfl
    | cons e es ih =>
      intro pm
      rw [List.foldl_cons, ih, PruneMap.get_put]
      unfold quoted
      by_cases h : e.1 = a
      · rw [List.filter_cons_of_pos (by simpa using h), List.getLast?_cons, if_pos h.symm]
        cases (es.filter fun e => decide (e.1 = a)).getLast? <;> rfl
      · rw [List.filter_cons_of_neg (by simpa using h), if_neg (Ne.symm h)]
  rw [key]
  simp [PruneMap.get_nil]

/-! ## The loop -/

/-- A contract without funds. -/
def Dead (acc : Account) : Prop := balance acc = 0 ∧ acc.type ≠ 0

instance (acc : Account) : Decidable (Dead acc) := inferInstanceAs (Decidable (_ ∧ _))

theorem isEmpty_iff (acc : Account) : isEmpty acc = true ↔ balance acc = 0 := by
  cases acc <;> simp [isEmpty, balance]

theorem not_dead_iff (acc : Account) : (isEmpty acc = false ∨ acc.type = 0) ↔ ¬ Dead acc := by
  unfold Dead
  rw [← isEmpty_iff]
  cases isEmpty acc <;> simp

theorem accountEq_iff (x : Option Account) (y : Account) : accountEq x (some y) = true ↔ x = some y := by
  cases x with
  | none => simp [accountEq]
  | some x =>
    cases x <;> cases y <;> simp [accountEq, Account.type]

theorem dead_initial : ¬ Dead initialAccount := by simp [Dead, initialAccount, Account.type]

/-- `a` sends a transaction. -/
def Sends (H : Bytes → Hash32) (txs : List Tx) (a : Addr) : Prop := ∃ tx ∈ txs, (tx.getSender H).1 = a

open Classical in
/-- After the emptied contracts that sent something are gone. -/
noncomputable def afterPrune (H : Bytes → Hash32) (txs : List Tx) (m : AMap) : AMap := fun a =>
  if Sends H txs a ∧ Dead (m a) then initialAccount else m a

theorem pruneLoop_cons (E : Env) (tx : Tx) (txs : List Tx) (pm : PruneMap) (m : AMap) :
    pruneLoop E mapLedger (tx :: txs) pm m =
      if ¬ Dead (m (tx.getSender E.H).1) then pruneLoop E mapLedger txs pm m
      else match pm.get (tx.getSender E.H).1 with
        | none => (.err (.pruneMissing (tx.getSender E.H).1), m)
        | some x =>
          if x = some (m (tx.getSender E.H).1) then
            pruneLoop E mapLedger txs (pm.del (tx.getSender E.H).1) (m.set (tx.getSender E.H).1 initialAccount)
          else (.err (.pruneAltered (tx.getSender E.H).1), m) := by
  rw [pruneLoop, M.bind_eq, mapLedger_get]
  simp only []
  by_cases hd : Dead (m (tx.getSender E.H).1)
  · rw [if_neg (fun h => (not_dead_iff _).mp h hd), if_neg (fun h => h hd)]
    cases pm.get (tx.getSender E.H).1 with
    | none => rfl
    | some x =>
      simp only []
      by_cases hx : x = some (m (tx.getSender E.H).1)
      · have := (accountEq_iff x _).mpr hx
        rw [if_neg (by rw [this]; simp), if_pos hx]
        rfl
      · have : accountEq x (some (m (tx.getSender E.H).1)) = false := by
          cases h : accountEq x (some (m (tx.getSender E.H).1)) with
          | false => rfl
          | true => exact absurd ((accountEq_iff x _).mp h) hx
        rw [if_pos this, if_neg hx]
        rfl
  · rw [if_pos ((not_dead_iff _).mpr hd), if_pos hd]

open Classical in
theorem pruneLoop_ok {E : Env} : ∀ {txs : List Tx} {pm pm' : PruneMap} {m m' : AMap},
    pruneLoop E mapLedger txs pm m = (.ok pm', m') →
      m' = afterPrune E.H txs m ∧
      (∀ a, Sends E.H txs a → Dead (m a) → pm.get a = some (some (m a))) ∧
      (∀ a, pm'.get a = if Sends E.H txs a ∧ Dead (m a) then none else pm.get a) := by
  intro txs
  induction txs with
  | nil =>
    intro pm pm' m m' h
    cases h
    refine ⟨?_, ?_, ?_⟩
    · funext a; simp [afterPrune, Sends]
    · rintro a ⟨_, h, _⟩; cases h
    · intro a; simp [Sends]
  | cons tx txs ih =>
    intro pm pm' m m' h
    rw [pruneLoop_cons] at h
    have hs : ∀ a, Sends E.H (tx :: txs) a ↔ (tx.getSender E.H).1 = a ∨ Sends E.H txs a := by
      intro a; simp [Sends]
    by_cases hd : Dead (m (tx.getSender E.H).1)
    · rw [if_neg (fun h => h hd)] at h
      cases hg : pm.get (tx.getSender E.H).1 with
      | none => rw [hg] at h; cases h
      | some x =>
        rw [hg] at h
        simp only [] at h
        by_cases hx : x = some (m (tx.getSender E.H).1)
        · rw [if_pos hx] at h
          obtain ⟨i1, i2, i3⟩ := ih h
          refine ⟨?_, ?_, ?_⟩
          · rw [i1]
            funext a
            unfold afterPrune
            by_cases ha : (tx.getSender E.H).1 = a
            · subst ha
              rw [AMap.set_same, if_neg (fun h => dead_initial h.2), if_pos ⟨(hs _).mpr (.inl rfl), hd⟩]
            · rw [AMap.set_ne _ _ (Ne.symm ha)]
              by_cases hc : Sends E.H txs a ∧ Dead (m a)
              · rw [if_pos hc, if_pos ⟨(hs _).mpr (.inr hc.1), hc.2⟩]
              · rw [if_neg hc, if_neg]
                rintro ⟨h1, h2⟩
                exact hc ⟨((hs _).mp h1).resolve_left ha, h2⟩
          · intro a h1 h2
            by_cases ha : (tx.getSender E.H).1 = a
            · subst ha; rw [hg, hx]
            · have := i2 a (((hs _).mp h1).resolve_left ha) (by rw [AMap.set_ne _ _ (Ne.symm ha)]; exact h2)
              rw [AMap.set_ne _ _ (Ne.symm ha), PruneMap.get_del, if_neg (Ne.symm ha)] at this
              exact this
          · intro a
            rw [i3, PruneMap.get_del]
            by_cases ha : (tx.getSender E.H).1 = a
            · subst ha
              rw [AMap.set_same, if_neg (fun h => dead_initial h.2), if_pos rfl, if_pos ⟨(hs _).mpr (.inl rfl), hd⟩]
            · rw [AMap.set_ne _ _ (Ne.symm ha), if_neg (Ne.symm ha)]
              by_cases hc : Sends E.H txs a ∧ Dead (m a)
              · rw [if_pos hc, if_pos ⟨(hs _).mpr (.inr hc.1), hc.2⟩]
              · rw [if_neg hc, if_neg]
                rintro ⟨h1, h2⟩
                exact hc ⟨((hs _).mp h1).resolve_left ha, h2⟩
        · rw [if_neg hx] at h; cases h
    · rw [if_pos hd] at h
      obtain ⟨i1, i2, i3⟩ := ih h
      have key : ∀ a, (Sends E.H (tx :: txs) a ∧ Dead (m a)) ↔ (Sends E.H txs a ∧ Dead (m a)) := by
        intro a
        constructor
        · rintro ⟨h1, h2⟩
          refine ⟨((hs _).mp h1).resolve_left ?_, h2⟩
          rintro rfl; exact hd h2
        · rintro ⟨h1, h2⟩; exact ⟨(hs _).mpr (.inr h1), h2⟩
      refine ⟨?_, ?_, ?_⟩
      · rw [i1]; funext a; unfold afterPrune
        by_cases hc : Sends E.H txs a ∧ Dead (m a)
        · rw [if_pos hc, if_pos ((key a).mpr hc)]
        · rw [if_neg hc, if_neg (fun h => hc ((key a).mp h))]
      · intro a h1 h2
        have := (key a).mp ⟨h1, h2⟩
        exact i2 a this.1 this.2
      · intro a
        rw [i3]
        by_cases hc : Sends E.H txs a ∧ Dead (m a)
        · rw [if_pos hc, if_pos ((key a).mpr hc)]
        · rw [if_neg hc, if_neg (fun h => hc ((key a).mp h))]

/-- The prune phase when it succeeds. -/
theorem prune_ok {E : Env} {body : Body} {m m' : AMap} {u : Unit} (h : pruneAccounts E mapLedger body m = (.ok u, m')) :
    m' = afterPrune E.H body.txs m ∧
    (∀ a, Sends E.H body.txs a → Dead (m a) → quoted body.pruned a = some (some (m a))) ∧
    (∀ a, quoted body.pruned a ≠ none → Sends E.H body.txs a ∧ Dead (m a)) := by
  unfold pruneAccounts at h
  rw [M.bind_ok] at h
  obtain ⟨pm, m1, h1, h2⟩ := h
  obtain ⟨i1, i2, i3⟩ := pruneLoop_ok h1
  by_cases hn : pm.map (·.1) ≠ []
  · rw [dif_pos hn] at h2; cases h2
  · rw [dif_neg hn] at h2
    cases h2
    have hpm : pm = [] := by
      cases pm with
      | nil => rfl
      | cons e es => exact absurd (by simp) hn
    refine ⟨i1, ?_, ?_⟩
    · intro a ha hd; rw [← pruneMap_get]; exact i2 a ha hd
    · intro a ha
      have := i3 a
      rw [hpm, PruneMap.get_nil, pruneMap_get] at this
      by_cases hc : Sends E.H body.txs a ∧ Dead (m a)
      · exact hc
      · rw [if_neg hc] at this; exact absurd this.symm ha

/-! ## Inherents -/

theorem addFees_eq (r : UInt64) (txs : List Tx) : addFees r txs = r + (txs.map fun tx => tx.amount.2).sum := by
  unfold addFees
  induction txs generalizing r with
  | nil => simp
  | cons tx txs ih => rw [List.foldl_cons, ih, List.map_cons, List.sum_cons]; grind

theorem coinbase_amount (a : Addr) (r : UInt64) (h : UInt32) : (coinbase a r h).amount = (r, 0) := rfl

/-- The inherents in full. -/
theorem inherents_map (height : UInt32) (body : Body) (m : AMap) : pushInherents mapLedger height body m =
    if height = 0 then (.panic, m)
    else if (m body.minerAddr).type = 0 then
      (.ok (), m.set body.minerAddr (withBalance (m body.minerAddr) (balance (m body.minerAddr) +
        (rewardAt height + (body.txs.map fun tx => tx.amount.2).sum))))
    else (.err (.typeMismatch 0 (m body.minerAddr).type), m) := by
  unfold pushInherents
  rw [M.bind_eq]
  by_cases h0 : height = 0
  · subst h0; rfl
  · have : mapLedger.blockReward height m = (.ok (rewardAt height), m) := by simp [mapLedger, h0]
    rw [this, if_neg h0]
    simp only []
    rw [pushTx_map, addFees_eq]
    by_cases ht : (m body.minerAddr).type = 0
    · rw [if_neg (fun h => h.2 ht.symm), if_pos ht]
      cases hm : m body.minerAddr with
      | basic a => rfl
      | vesting a => rw [hm] at ht; cases ht
      | htlc a => rw [hm] at ht; cases ht
    · rw [if_pos ⟨by decide, fun h => ht h.symm⟩, if_neg ht]

/-- After the inherents. -/
def afterInherents (height : UInt32) (body : Body) (m : AMap) : AMap :=
  m.set body.minerAddr (withBalance (m body.minerAddr) (balance (m body.minerAddr) +
    (rewardAt height + (body.txs.map fun tx => tx.amount.2).sum)))

theorem inherents_ok {height : UInt32} {body : Body} {m m' : AMap} {u : Unit}
    (h : pushInherents mapLedger height body m = (.ok u, m')) :
    height ≠ 0 ∧ (m body.minerAddr).type = 0 ∧ m' = afterInherents height body m := by
  rw [inherents_map] at h
  split at h
  · cases h
  · rename_i h0
    split at h
    · rename_i ht
      cases h
      exact ⟨h0, ht, rfl⟩
    · cases h

/-- The state before the prune phase. -/
def afterTransfers (E : Env) (block : Block) (body : Body) (m : AMap) : AMap :=
  afterCreate block.height body.txs (afterRecipients body.txs (afterSenders E.H body.txs m))

/-- The result of a successful push in full. -/
theorem push_result {E : Env} {block : Block} {m m' : AMap} (h : push E mapLedger block m = (.ok (), m')) :
    ∃ body, block.body = some body ∧ block.height ≠ 0 ∧
      (∀ tx ∈ body.txs, (m tx.getRecipient.1).type = 0) ∧
      (∀ a, Sends E.H body.txs a → Dead (afterTransfers E block body m a) →
        quoted body.pruned a = some (some (afterTransfers E block body m a))) ∧
      (∀ a, quoted body.pruned a ≠ none → Sends E.H body.txs a ∧ Dead (afterTransfers E block body m a)) ∧
      (∀ tx ∈ body.txs, creates tx = true → ∃ x, contractOf tx block.height
        (balance (afterRecipients body.txs (afterSenders E.H body.txs m) tx.getRecipient.1)) = .ok x) ∧
      (afterPrune E.H body.txs (afterTransfers E block body m) body.minerAddr).type = 0 ∧
      m' = afterInherents block.height body (afterPrune E.H body.txs (afterTransfers E block body m)) := by
  obtain ⟨body, m1, m2, m3, m4, hb, h1, h2, h3, h4, h5⟩ := push_ok h
  rw [pushSenders_eq] at h1
  rw [pushRecipients_eq] at h2
  rw [createContracts_eq] at h3
  have e1 := senders_ok h1
  obtain ⟨e2, e2'⟩ := recipients_ok h2
  obtain ⟨e3, e3'⟩ := creates_ok h3
  obtain ⟨e4, e4', e4''⟩ := prune_ok h4
  obtain ⟨e5, e5', e5''⟩ := inherents_ok h5
  subst e1 e2 e3 e4
  refine ⟨body, hb, e5, ?_, e4', e4'', e3', e5', e5''⟩
  intro tx ht
  have := e2' tx ht
  simpa [afterSenders] using this

end Nimiq.Accounts
