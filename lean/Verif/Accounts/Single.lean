import Verif.Accounts.ContractProps
/-!
# Blocks with one transaction; C55, C57 and C62 are violated
-/
namespace Nimiq.Accounts
open Beserial Beserial.Spec Wire Spec Float64

variable {E : Env} {n n' : Node}

theorem creates_flags0 {t : ExtendedTx} (h : t.flags = 0) : creates (.extended t) = false := by
  show (t.flags &&& 0x01 != 0) = false
  rw [h]; decide

theorem basic_out {v d : UInt64} {tx : Tx} {h : UInt32} (hd : tx.amount.1 + tx.amount.2 = d) (hle : d ≤ v) :
    applyOutgoing E (.basic ⟨v⟩) tx h = .ok (.basic ⟨v - d⟩) := by
  subst hd
  unfold applyOutgoing basicOutgoing
  simp only []
  rw [if_neg (UInt64.not_lt.mpr hle)]

/-- A block with one transfer between different accounts, none of them the miner's. -/
theorem single_push {m : AMap} {a b c : Addr} {tx : Tx} {x : Account} {height : UInt32} {hash : Hash32}
    (hab : a ≠ b) (hac : a ≠ c) (hbc : b ≠ c) (h0 : height ≠ 0)
    (hs : (tx.getSender E.H).1 = a) (hst : (tx.getSender E.H).2 = 0xFF ∨ (tx.getSender E.H).2 = (m a).type)
    (hr : tx.getRecipient = (b, 0)) (hcr : creates tx = false)
    (hx : applyOutgoing E (m a) tx height = .ok x) (hd : ¬ Dead x)
    (hb : (m b).type = 0) (hc : (m c).type = 0) :
    push E mapLedger ⟨height, hash, some ⟨c, [tx], []⟩⟩ m = (.ok (),
      ((m.set a x).set b (withBalance (m b) (balance (m b) + tx.amount.1))).set c
        (withBalance (m c) (balance (m c) + (rewardAt height + tx.amount.2)))) := by
  have hxx := applyOutgoing_ok hx
  have hsb : ∀ d, sentBy E.H d [tx] = if a = d then [tx] else [] := by
    intro d
    by_cases h : a = d
    · simp [sentBy, hs, h]
    · simp [sentBy, hs, h]
  have hrb : ∀ d, receivedBy d [tx] = if b = d then [tx] else [] := by
    intro d
    by_cases h : b = d
    · simp [receivedBy, hr, h]
    · simp [receivedBy, hr, h]
  have hmem : ∀ {t : Tx}, t ∈ [tx] → t = tx := fun h => List.mem_singleton.mp h
  have hS : afterSenders E.H [tx] m = m.set a x := by
    funext d
    unfold afterSenders
    rw [hsb]
    by_cases h : a = d
    · subst h; rw [if_pos rfl, AMap.set_same, hxx]; simp
    · rw [if_neg h, AMap.set_ne _ _ (Ne.symm h)]; simp
  have hR : afterRecipients [tx] (m.set a x) = (m.set a x).set b (withBalance (m b) (balance (m b) + tx.amount.1)) := by
    funext d
    unfold afterRecipients
    rw [hrb]
    by_cases h : b = d
    · subst h; rw [if_pos rfl, AMap.set_same, AMap.set_ne _ _ (Ne.symm hab)]; simp
    · rw [if_neg h, AMap.set_ne _ _ (Ne.symm h)]; simp
  have hT : afterTransfers E ⟨height, hash, some ⟨c, [tx], []⟩⟩ ⟨c, [tx], []⟩ m =
      (m.set a x).set b (withBalance (m b) (balance (m b) + tx.amount.1)) := by
    unfold afterTransfers
    rw [afterCreate_none (fun t ht => by rw [hmem ht]; exact hcr)]
    show afterRecipients [tx] (afterSenders E.H [tx] m) = _
    rw [hS, hR]
  have hnd : ∀ d, ¬ (Sends E.H [tx] d ∧
      Dead (((m.set a x).set b (withBalance (m b) (balance (m b) + tx.amount.1))) d)) := by
    rintro d ⟨⟨t, ht, htd⟩, hdd⟩
    rw [hmem ht, hs] at htd; subst htd
    rw [AMap.set_ne _ _ hab, AMap.set_same] at hdd
    exact hd hdd
  have hP : afterPrune E.H [tx] ((m.set a x).set b (withBalance (m b) (balance (m b) + tx.amount.1))) =
      (m.set a x).set b (withBalance (m b) (balance (m b) + tx.amount.1)) := by
    funext d; unfold afterPrune; rw [if_neg (hnd d)]
  refine push_iff.mpr ⟨⟨c, [tx], []⟩, rfl, h0, ?_, ?_, ?_, ?_, ?_, ?_⟩
  · intro pre t post he
    rcases List.append_eq_singleton_iff.mp he.symm with ⟨rfl, h2⟩ | ⟨_, h2⟩
    · cases h2
      have e0 : afterSenders E.H [] m = m := by funext a; simp [afterSenders, sentBy]
      rw [e0]
      exact ⟨by rw [hs]; exact hst, x, by rw [hs]; exact hx⟩
    · cases h2
  · intro t ht; rw [hmem ht]
    exact ⟨by rw [hr]; exact hb, .inr (.inl (by rw [hr]))⟩
  · intro t ht h; rw [hmem ht, hcr] at h; cases h
  · rw [hT]
    exact ⟨fun d h1 h2 => absurd ⟨h1, h2⟩ (hnd d), fun d h => absurd rfl h⟩
  · rw [hT]
    show (afterPrune E.H [tx] _ c).type = 0
    rw [hP, AMap.set_ne _ _ (Ne.symm hbc), AMap.set_ne _ _ (Ne.symm hac)]
    exact hc
  · rw [hT]
    show _ = afterInherents height ⟨c, [tx], []⟩ (afterPrune E.H [tx] _)
    rw [hP]
    unfold afterInherents
    simp only []
    rw [AMap.set_ne _ _ (Ne.symm hbc), AMap.set_ne _ _ (Ne.symm hac)]
    simp

/-- The same for nodes. -/
theorem single_push_node (hn : Reach E n) {a b c : Addr} {tx : Tx} {x : Account} {height : UInt32} {hash : Hash32}
    (hab : a ≠ b) (hac : a ≠ c) (hbc : b ≠ c) (h0 : height ≠ 0)
    (hs : (tx.getSender E.H).1 = a) (hst : (tx.getSender E.H).2 = 0xFF ∨ (tx.getSender E.H).2 = (accountOf n a).type)
    (hr : tx.getRecipient = (b, 0)) (hcr : creates tx = false)
    (hx : applyOutgoing E (accountOf n a) tx height = .ok x) (hd : ¬ Dead x)
    (hb : (accountOf n b).type = 0) (hc : (accountOf n c).type = 0) :
    (Push E ⟨height, hash, some ⟨c, [tx], []⟩⟩ n).1 = .ok () ∧
    accountOf (Push E ⟨height, hash, some ⟨c, [tx], []⟩⟩ n).2 =
      ((AMap.set (accountOf n) a x).set b (withBalance (accountOf n b) (balance (accountOf n b) + tx.amount.1))).set c
        (withBalance (accountOf n c) (balance (accountOf n c) + (rewardAt height + tx.amount.2))) := by
  have q := hn.push_eq ⟨height, hash, some ⟨c, [tx], []⟩⟩
  rw [single_push hab hac hbc h0 hs hst hr hcr hx hd hb hc] at q
  exact q

/-! ## C62 -/

/-- C62 is false: a transaction in the extended format that spends from a basic account is accepted with any proof bytes
whatsoever (for instance none). Everybody can take everybody's money. -/
theorem C62_theft_violated (hn : Reach E n) (a b c : Addr) (v : UInt64) (height : UInt32) (h0 : height ≠ 0)
    (ha : accountOf n a = .basic ⟨v⟩) (hb : accountOf n b = .basic ⟨0⟩) (hc : accountOf n c = .basic ⟨0⟩)
    (hab : a ≠ b) (hac : a ≠ c) (hbc : b ≠ c) (hash : Hash32) (proof : Bytes) :
    let block : Block := ⟨height, hash, some ⟨c, [.extended ⟨[], a, 0, b, 0, v, 0, 1, 1, 0, proof⟩], []⟩⟩
    (Push E block n).1 = .ok () ∧
    accountOf (Push E block n).2 a = .basic ⟨0⟩ ∧ accountOf (Push E block n).2 b = .basic ⟨v⟩ := by
  intro block
  obtain ⟨q1, q2⟩ := single_push_node hn (tx := .extended ⟨[], a, 0, b, 0, v, 0, 1, 1, 0, proof⟩) (hash := hash)
    (x := .basic ⟨0⟩) hab hac hbc h0 rfl
    (.inr (by rw [ha]; rfl)) rfl (creates_flags0 rfl) (by
      rw [ha, basic_out (d := v) (by show v + 0 = v; simp) (UInt64.le_refl v)]
      simp) (fun h => h.2 rfl) (by rw [hb]; rfl) (by rw [hc]; rfl)
  refine ⟨q1, ?_, ?_⟩
  · show accountOf (Push E _ n).2 a = _
    rw [q2, AMap.set_ne _ _ hac, AMap.set_ne _ _ hab, AMap.set_same]
  · show accountOf (Push E _ n).2 b = _
    rw [q2, AMap.set_ne _ _ hbc, AMap.set_same, hb]
    show Account.basic ⟨0 + v⟩ = _
    simp

/-! ## C55, C57: wrapping around -/

/-- C55 and C57 are false for basic accounts: with a value of `2^64 - 1` and a fee of 1 the debit wraps around to 0. From
every reachable state in which the accounts concerned are basic and those of the recipient and the miner empty, such a
transaction succeeds: the sender keeps everything, and `2^64` more than the reward comes into existence. -/
theorem C55_wrap_violated (hn : Reach E n) (a b c : Addr) (v : UInt64) (height : UInt32) (h0 : height ≠ 0)
    (ha : accountOf n a = .basic ⟨v⟩) (hb : accountOf n b = .basic ⟨0⟩) (hc : accountOf n c = .basic ⟨0⟩)
    (hab : a ≠ b) (hac : a ≠ c) (hbc : b ≠ c) (hash : Hash32) :
    let tx : Tx := .extended ⟨[], a, 0, b, 0, 0xFFFFFFFFFFFFFFFF, 1, 1, 1, 0, []⟩
    let block : Block := ⟨height, hash, some ⟨c, [tx], []⟩⟩
    ∃ r cache, Policy.blockReward n.cache height = .ok (r, cache) ∧
    (Push E block n).1 = .ok () ∧
    sentWithFees E.H [tx] a = 2 ^ 64 ∧
    accountOf (Push E block n).2 a = .basic ⟨v⟩ ∧
    total (accountOf (Push E block n).2) = total (accountOf n) + r.toNat + 2 ^ 64 := by
  intro tx block
  obtain ⟨cache, hrew⟩ := rewardAt_node hn h0
  obtain ⟨q1, q2⟩ := single_push_node hn (tx := tx) (hash := hash)
    (x := .basic ⟨v⟩) hab hac hbc h0 rfl
    (.inr (by rw [ha]; rfl)) rfl (creates_flags0 rfl) (by
      rw [ha, basic_out (d := 0) (by show (0xFFFFFFFFFFFFFFFF : UInt64) + 1 = 0; decide) UInt64.zero_le]
      simp) (fun h => h.2 rfl) (by rw [hb]; rfl) (by rw [hc]; rfl)
  refine ⟨_, cache, hrew, q1, ?_, ?_, ?_⟩
  · have : ([tx].filter fun t => (t.getSender E.H).1 = a) = [tx] := by
      rw [List.filter_cons_of_pos (by simp [tx, Tx.getSender])]; rfl
    unfold sentWithFees
    rw [this, List.map_singleton, List.sum_singleton]
    have e1 : value tx = (0xFFFFFFFFFFFFFFFF : UInt64).toNat := rfl
    have e2 : fee tx = (1 : UInt64).toNat := rfl
    rw [e1, e2, UInt64.toNat_ofNat, UInt64.toNat_ofNat]
    norm_num
  · show accountOf (Push E _ n).2 a = _
    rw [q2, AMap.set_ne _ _ hac, AMap.set_ne _ _ hab, AMap.set_same]
  · show total (accountOf (Push E _ n).2) = _
    rw [q2]
    have t1 := total_set (accountOf n) a (.basic ⟨v⟩)
    have t2 := total_set (AMap.set (accountOf n) a (.basic ⟨v⟩)) b
      (withBalance (accountOf n b) (balance (accountOf n b) + tx.amount.1))
    have t3 := total_set ((AMap.set (accountOf n) a (.basic ⟨v⟩)).set b
      (withBalance (accountOf n b) (balance (accountOf n b) + tx.amount.1))) c
      (withBalance (accountOf n c) (balance (accountOf n c) + (rewardAt height + tx.amount.2)))
    rw [AMap.set_ne _ _ (Ne.symm hbc), AMap.set_ne _ _ (Ne.symm hac)] at t3
    rw [AMap.set_ne _ _ (Ne.symm hab)] at t2
    rw [balance_withBalance] at t2 t3
    rw [ha] at t1
    rw [hb] at t2 t3 ⊢
    rw [hc] at t3 ⊢
    have e1 : (balance (Account.basic ⟨0⟩)).toNat = 0 := rfl
    have e2 : (balance (Account.basic ⟨0⟩) + tx.amount.1).toNat = 2 ^ 64 - 1 := by
      show ((0 : UInt64) + 0xFFFFFFFFFFFFFFFF).toNat = _
      rw [UInt64.zero_add, UInt64.toNat_ofNat]
      norm_num
    have e3 : (balance (Account.basic ⟨0⟩) + (rewardAt height + tx.amount.2)).toNat = (rewardAt height).toNat + 1 := by
      show ((0 : UInt64) + (rewardAt height + 1)).toNat = _
      have hle := rewardAt_le h0
      have hcv : Policy.Spec.cap + 1 < 2 ^ 64 := by decide
      have h1 : (1 : UInt64).toNat = 1 := rfl
      have h0' : (0 : UInt64).toNat = 0 := rfl
      rw [UInt64.toNat_add, UInt64.toNat_add, h1, h0', Nat.zero_add, Nat.mod_mod, Nat.mod_eq_of_lt (by omega)]
    rw [e1, e2] at t2
    rw [e1, e3] at t3
    omega

/-- C57 and C55 are false for vesting accounts: the value is compared with the unlocked amount only, never with the balance.
The balance wraps around. -/
theorem C57_vesting_violated (hn : Reach E n) (a b c : Addr) (va : VestingAccount) (v : UInt64) (height : UInt32)
    (h0 : height ≠ 0) (ha : accountOf n a = .vesting va) (hb : accountOf n b = .basic ⟨0⟩) (hc : accountOf n c = .basic ⟨0⟩)
    (hab : a ≠ b) (hac : a ≠ c) (hbc : b ≠ c) (hash : Hash32) (proof : Bytes) (hp : ProofOf E.H proof va.owner)
    (hover : va.value < v) (hv : v ≤ amountUnlocked E va height) :
    let tx : Tx := .extended ⟨[], a, 1, b, 0, v, 0, 1, 1, 0, proof⟩
    let block : Block := ⟨height, hash, some ⟨c, [tx], []⟩⟩
    (Push E block n).1 = .ok () ∧
    funds (accountOf n a) < sentValue E.H [tx] a ∧
    accountOf (Push E block n).2 b = .basic ⟨v⟩ ∧
    funds (accountOf (Push E block n).2 a) = 2 ^ 64 + funds (accountOf n a) - v.toNat := by
  intro tx block
  rw [UInt64.lt_iff_toNat_lt] at hover
  have hlt := v.toNat_lt
  have hlt2 := va.value.toNat_lt
  have hsub : (va.value - v).toNat = 2 ^ 64 + va.value.toNat - v.toNat := by
    rw [UInt64.toNat_sub]; omega
  obtain ⟨q1, q2⟩ := single_push_node hn (tx := tx) (hash := hash)
    (x := .vesting { va with value := va.value - v }) hab hac hbc h0 rfl
    (.inr (by rw [ha]; rfl)) rfl (creates_flags0 rfl) (by
      rw [ha]
      exact (C60_debit_iff ..).mpr ⟨_, rfl, hv, hp, rfl⟩) (fun h => by
        have := congrArg UInt64.toNat h.1
        have e : (balance (.vesting { va with value := va.value - v })).toNat = (va.value - v).toNat := rfl
        rw [e, hsub] at this
        simp at this; omega) (by rw [hb]; rfl) (by rw [hc]; rfl)
  refine ⟨q1, ?_, ?_, ?_⟩
  · have : ([tx].filter fun t => (t.getSender E.H).1 = a) = [tx] := by
      rw [List.filter_cons_of_pos (by simp [tx, Tx.getSender])]; rfl
    unfold sentValue
    rw [this, ha]
    show va.value.toNat < v.toNat + 0
    omega
  · show accountOf (Push E _ n).2 b = _
    rw [q2, AMap.set_ne _ _ hbc, AMap.set_same, hb]
    show Account.basic ⟨0 + v⟩ = _
    simp
  · show funds (accountOf (Push E _ n).2 a) = _
    rw [q2, AMap.set_ne _ _ hac, AMap.set_ne _ _ hab, AMap.set_same, ha]
    exact hsub

/-- The hypotheses of `C57_vesting_violated` are met: a vesting account with a balance of 1 of which 2 are unlocked. -/
example (E : Env) (key : BArr 32) (sig : BArr 64) (a b c : Addr) (hab : a ≠ b) (hac : a ≠ c) :
    ∃ n va proof, Reach E n ∧ accountOf n a = .vesting va ∧ accountOf n b = .basic ⟨0⟩ ∧ accountOf n c = .basic ⟨0⟩ ∧
      ProofOf E.H proof va.owner ∧ va.value < 2 ∧ 2 ≤ amountUnlocked E va 1 := by
  refine ⟨(Node.putAccount E.H a (some (.vesting ⟨1, publicKeyToAddress E.H key, 0, 1, 2, 2⟩)) newNode).2, _,
    key.val ++ 0 :: sig.val, .put _ _ .new, by rw [accountOf_put .new, AMap.set_same], ?_, ?_, ?_, ?_, ?_⟩
  · rw [accountOf_put .new, AMap.set_ne _ _ (Ne.symm hab), accountOf_new]
  · rw [accountOf_put .new, AMap.set_ne _ _ (Ne.symm hac), accountOf_new]
  · exact ⟨⟨key, ⟨⟨0, []⟩, []⟩, sig⟩, ⟨by show 0 = BitSet.size 0; decide, rfl⟩, by simp [proofBytes], C52_empty E.H _ rfl⟩
  · show (1 : UInt64) < 2; decide
  · have := C60_whole_steps E ⟨1, publicKeyToAddress E.H key, 0, 1, 2, 2⟩ 1 1 (by decide) (by show (1 : UInt32) ≠ 0; decide)
      (by show (2 : UInt64) ≠ 0; decide) rfl (by show 1 * 2 < 2 ^ 53; decide)
    rw [UInt64.le_iff_toNat_le, this]
    exact Nat.le_refl _

/-- The hypotheses of `C62_theft_violated` and `C55_wrap_violated` are met. -/
example (E : Env) (a b c : Addr) (hab : a ≠ b) (hac : a ≠ c) : ∃ n, Reach E n ∧ accountOf n a = .basic ⟨7⟩ ∧
    accountOf n b = .basic ⟨0⟩ ∧ accountOf n c = .basic ⟨0⟩ :=
  ⟨(Node.putAccount E.H a (some (.basic ⟨7⟩)) newNode).2, .put _ _ .new, by rw [accountOf_put .new, AMap.set_same],
    by rw [accountOf_put .new, AMap.set_ne _ _ (Ne.symm hab), accountOf_new],
    by rw [accountOf_put .new, AMap.set_ne _ _ (Ne.symm hac), accountOf_new]⟩

end Nimiq.Accounts
