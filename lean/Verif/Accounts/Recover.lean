import Verif.Accounts.Undo
/-!
# C87: money in contracts can be taken out; C88: how vesting contracts release it
-/
namespace Nimiq.Accounts
open Beserial Beserial.Spec Wire Spec Float64

variable {E : Env} {n n' : Node}

/-! ## A block with one transaction that may empty a contract -/

/-- The accounts after a block with one transfer from `a` to `b`, mined by `c`; `x` is what is left at `a`. -/
def afterSingle (m : AMap) (a b c : Addr) (x : Account) (tx : Tx) (height : UInt32) : AMap :=
  ((m.set a x).set b (withBalance (m b) (balance (m b) + tx.amount.1))).set c
    (withBalance (m c) (balance (m c) + (rewardAt height + tx.amount.2)))

/-- A transfer that empties the sender's contract: the block has to quote the emptied contract, which disappears. -/
theorem single_push_dead {m : AMap} {a b c : Addr} {tx : Tx} {x : Account} {height : UInt32} {hash : Hash32}
    (hab : a ≠ b) (hac : a ≠ c) (hbc : b ≠ c) (h0 : height ≠ 0)
    (hs : (tx.getSender E.H).1 = a) (hst : (tx.getSender E.H).2 = 0xFF ∨ (tx.getSender E.H).2 = (m a).type)
    (hr : tx.getRecipient = (b, 0)) (hcr : creates tx = false)
    (hx : applyOutgoing E (m a) tx height = .ok x) (hd : Dead x)
    (hb : (m b).type = 0) (hc : (m c).type = 0) :
    push E mapLedger ⟨height, hash, some ⟨c, [tx], [(a, some x)]⟩⟩ m =
      (.ok (), afterSingle m a b c initialAccount tx height) := by
  have hxx := applyOutgoing_ok hx
  have hsb : ∀ d, sentBy E.H d [tx] = if a = d then [tx] else [] := by
    intro d
    by_cases h : a = d
    · simp [sentBy, hs, h]
    · simp [sentBy, hs, h]
  have hrb : ∀ d, receivedBy d [tx] = if b = d then [tx] else [] := by
    intro d
    by_cases h : b = d
    · simp [receivedBy, hr, h]
    · simp [receivedBy, hr, h]
  have hmem : ∀ {t : Tx}, t ∈ [tx] → t = tx := fun h => List.mem_singleton.mp h
  have hS : afterSenders E.H [tx] m = m.set a x := by
    funext d
    unfold afterSenders
    rw [hsb]
    by_cases h : a = d
    · subst h; rw [if_pos rfl, AMap.set_same, hxx]; simp
    · rw [if_neg h, AMap.set_ne _ _ (Ne.symm h)]; simp
  have hR : afterRecipients [tx] (m.set a x) = (m.set a x).set b (withBalance (m b) (balance (m b) + tx.amount.1)) := by
    funext d
    unfold afterRecipients
    rw [hrb]
    by_cases h : b = d
    · subst h; rw [if_pos rfl, AMap.set_same, AMap.set_ne _ _ (Ne.symm hab)]; simp
    · rw [if_neg h, AMap.set_ne _ _ (Ne.symm h)]; simp
  have hT : afterTransfers E ⟨height, hash, some ⟨c, [tx], [(a, some x)]⟩⟩ ⟨c, [tx], [(a, some x)]⟩ m =
      (m.set a x).set b (withBalance (m b) (balance (m b) + tx.amount.1)) := by
    unfold afterTransfers
    rw [afterCreate_none (fun t ht => by rw [hmem ht]; exact hcr)]
    show afterRecipients [tx] (afterSenders E.H [tx] m) = _
    rw [hS, hR]
  have hsends : ∀ d, Sends E.H [tx] d ↔ d = a := by intro d; simp [Sends, hs, eq_comm]
  have hTa : ((m.set a x).set b (withBalance (m b) (balance (m b) + tx.amount.1))) a = x := by
    rw [AMap.set_ne _ _ hab, AMap.set_same]
  have hP : afterPrune E.H [tx] ((m.set a x).set b (withBalance (m b) (balance (m b) + tx.amount.1))) =
      (m.set a initialAccount).set b (withBalance (m b) (balance (m b) + tx.amount.1)) := by
    funext d; unfold afterPrune
    by_cases h : d = a
    · subst h
      rw [if_pos ⟨(hsends d).mpr rfl, by rw [hTa]; exact hd⟩, AMap.set_ne _ _ hab, AMap.set_same]
    · rw [if_neg (fun hh => h ((hsends d).mp hh.1))]
      by_cases hdb : d = b
      · subst hdb; rw [AMap.set_same, AMap.set_same]
      · rw [AMap.set_ne _ _ hdb, AMap.set_ne _ _ hdb, AMap.set_ne _ _ h, AMap.set_ne _ _ h]
  refine push_iff.mpr ⟨⟨c, [tx], [(a, some x)]⟩, rfl, h0, ?_, ?_, ?_, ?_, ?_, ?_⟩
  · intro pre t post he
    rcases List.append_eq_singleton_iff.mp he.symm with ⟨rfl, h2⟩ | ⟨_, h2⟩
    · cases h2
      have e0 : afterSenders E.H [] m = m := by funext a; simp [afterSenders, sentBy]
      rw [e0]
      exact ⟨by rw [hs]; exact hst, x, by rw [hs]; exact hx⟩
    · cases h2
  · intro t ht; rw [hmem ht]
    exact ⟨by rw [hr]; exact hb, .inr (.inl (by rw [hr]))⟩
  · intro t ht h; rw [hmem ht, hcr] at h; cases h
  · rw [hT]
    refine ⟨fun d h1 _ => ?_, fun d h => ?_⟩
    · rw [(hsends d).mp h1, hTa]; simp [quoted]
    · have : d = a := by
        by_contra hcon
        exact h (by simp [quoted, Ne.symm hcon])
      subst this
      exact ⟨(hsends d).mpr rfl, by rw [hTa]; exact hd⟩
  · rw [hT]
    show (afterPrune E.H [tx] _ c).type = 0
    rw [hP, AMap.set_ne _ _ (Ne.symm hbc), AMap.set_ne _ _ (Ne.symm hac)]
    exact hc
  · rw [hT]
    show _ = afterInherents height ⟨c, [tx], [(a, some x)]⟩ (afterPrune E.H [tx] _)
    rw [hP]
    unfold afterInherents afterSingle
    simp only []
    rw [AMap.set_ne _ _ (Ne.symm hbc), AMap.set_ne _ _ (Ne.symm hac)]
    simp

/-- Whether the contract is emptied or not: there is a prune list with which the block is accepted. -/
theorem single_push_some (hn : Reach E n) {a b c : Addr} {tx : Tx} {x : Account} {height : UInt32} {hash : Hash32}
    (hab : a ≠ b) (hac : a ≠ c) (hbc : b ≠ c) (h0 : height ≠ 0)
    (hs : (tx.getSender E.H).1 = a) (hst : (tx.getSender E.H).2 = 0xFF ∨ (tx.getSender E.H).2 = (accountOf n a).type)
    (hr : tx.getRecipient = (b, 0)) (hcr : creates tx = false)
    (hx : applyOutgoing E (accountOf n a) tx height = .ok x)
    (hb : (accountOf n b).type = 0) (hc : (accountOf n c).type = 0) :
    ∃ pruned n', Push E ⟨height, hash, some ⟨c, [tx], pruned⟩⟩ n = (.ok (), n') ∧
      (balance x ≠ 0 → accountOf n' a = x) ∧ (balance x = 0 → accountOf n' a = initialAccount) ∧
      accountOf n' b = withBalance (accountOf n b) (balance (accountOf n b) + tx.amount.1) := by
  by_cases hd : Dead x
  · have q := hn.push_eq ⟨height, hash, some ⟨c, [tx], [(a, some x)]⟩⟩
    rw [single_push_dead hab hac hbc h0 hs hst hr hcr hx hd hb hc] at q
    refine ⟨[(a, some x)], _, Prod.ext q.1 rfl, fun h => absurd hd.1 h, fun _ => ?_, ?_⟩
    · rw [q.2]; unfold afterSingle; simp only []
      rw [AMap.set_ne _ _ hac, AMap.set_ne _ _ hab, AMap.set_same]
    · rw [q.2]; unfold afterSingle; simp only []
      rw [AMap.set_ne _ _ hbc, AMap.set_same]
  · obtain ⟨q1, q2⟩ := single_push_node hn (hash := hash) hab hac hbc h0 hs hst hr hcr hx hd hb hc
    refine ⟨[], _, Prod.ext q1 rfl, fun _ => ?_, fun h => ?_, ?_⟩
    · rw [q2, AMap.set_ne _ _ hac, AMap.set_ne _ _ hab, AMap.set_same]
    · rw [q2, AMap.set_ne _ _ hac, AMap.set_ne _ _ hab, AMap.set_same]
      have ht : x.type = 0 := by
        by_contra ht; exact hd ⟨h, ht⟩
      rw [basic_of_type ht, h]; rfl
    · rw [q2, AMap.set_ne _ _ hbc, AMap.set_same]

/-! ## C87 -/

/-- The proof bytes of a single key: the key, an empty Merkle path, a signature. -/
theorem proofOf_key (H : Bytes → Hash32) (key : BArr 32) (sig : BArr 64) :
    ProofOf H (key.val ++ 0 :: sig.val) (publicKeyToAddress H key) :=
  ⟨⟨key, ⟨⟨0, []⟩, []⟩, sig⟩, ⟨by show 0 = BitSet.size 0; decide, rfl⟩, by simp [proofBytes], C52_empty H _ rfl⟩

/-- `v` can be paid from the account at `a` to the basic account at `b` at this height, by a transaction without fee that
carries these proof bytes, in a block of any miner with a basic account: the block is accepted, `b` receives `v`, and what is
at `a` afterwards is the contract with `v` less, or nothing if that was all. -/
def CanPay (E : Env) (n : Node) (a b : Addr) (v : UInt64) (height : UInt32) (proof : Bytes) : Prop :=
  ∀ c hash, a ≠ c → b ≠ c → (accountOf n c).type = 0 →
    let tx : Tx := .extended ⟨[], a, (accountOf n a).type, b, 0, v, 0, 1, 1, 0, proof⟩
    ∃ pruned n', Push E ⟨height, hash, some ⟨c, [tx], pruned⟩⟩ n = (.ok (), n') ∧
      funds (accountOf n' a) + v.toNat = funds (accountOf n a) ∧
      (funds (accountOf n' a) ≠ 0 → (accountOf n' a).type = (accountOf n a).type) ∧
      (funds (accountOf n' a) = 0 → accountOf n' a = .basic ⟨0⟩) ∧
      funds (accountOf n' b) = (funds (accountOf n b) + v.toNat) % 2 ^ 64

theorem canPay_of {a b : Addr} {v : UInt64} {height : UInt32} {proof : Bytes} (hn : Reach E n) (hab : a ≠ b)
    (h0 : height ≠ 0) (hb : (accountOf n b).type = 0) {x : Account}
    (hx : applyOutgoing E (accountOf n a)
      (.extended ⟨[], a, (accountOf n a).type, b, 0, v, 0, 1, 1, 0, proof⟩) height = .ok x)
    (hbal : (balance x).toNat + v.toNat = (balance (accountOf n a)).toNat) (hty : x.type = (accountOf n a).type) :
    CanPay E n a b v height proof := by
  intro c hash hac hbc hc tx
  obtain ⟨p, n', q1, q2, q3, q4⟩ := single_push_some hn (hash := hash) (tx := tx) hab hac hbc h0 rfl (.inr rfl) rfl
    (creates_flags0 rfl) hx hb hc
  refine ⟨p, n', q1, ?_, ?_, ?_, ?_⟩
  · by_cases hz : balance x = 0
    · rw [q3 hz, funds_eq, funds_eq]
      rw [hz] at hbal; exact hbal
    · rw [q2 hz, funds_eq, funds_eq]; exact hbal
  · intro h
    by_cases hz : balance x = 0
    · rw [q3 hz] at h; exact absurd rfl h
    · rw [q2 hz]; exact hty
  · intro h
    by_cases hz : balance x = 0
    · rw [q3 hz]; rfl
    · rw [q2 hz, funds_eq] at h
      exact absurd (UInt64.toNat_inj.mp h) hz
  · rw [q4, funds_eq, funds_eq, balance_withBalance, UInt64.toNat_add]; rfl

/-- C87: once the timeout of an HTLC has passed, its sender can take out any part of the balance, up to all of it. -/
theorem C87_htlc_refund (hn : Reach E n) (a b : Addr) (h : HTLCAccount) (ha : accountOf n a = .htlc h) (hab : a ≠ b)
    (hb : (accountOf n b).type = 0) (v : UInt64) (hv : v ≤ h.value) (height : UInt32) (ht : h.timeout < height)
    (key : BArr 32) (sig : BArr 64) (hk : publicKeyToAddress E.H key = h.sender) :
    CanPay E n a b v height (3 :: (key.val ++ 0 :: sig.val)) := by
  refine canPay_of hn hab (fun h0 => ?_) hb (x := .htlc { h with value := h.value - v }) ?_ ?_ ?_
  · rw [h0, UInt32.lt_iff_toNat_lt] at ht; exact absurd ht (by simp)
  · rw [ha]
    exact (C61_debit_iff ..).mpr ⟨_, rfl, hv, .timeout _ ht (by rw [← hk]; exact proofOf_key ..), rfl⟩
  · rw [ha]; show (h.value - v).toNat + _ = h.value.toNat
    rw [UInt64.toNat_sub_of_le _ _ hv]
    have := UInt64.le_iff_toNat_le.mp hv; omega
  · rw [ha]; rfl

/-- C87: up to the timeout, the recipient of an HTLC can take out any part of the balance by quoting the hash root. -/
theorem C87_htlc_redeem (hn : Reach E n) (a b : Addr) (h : HTLCAccount) (ha : accountOf n a = .htlc h) (hab : a ≠ b)
    (hb : (accountOf n b).type = 0) (v : UInt64) (hv : v ≤ h.value) (height : UInt32) (h0 : height ≠ 0)
    (ht : height ≤ h.timeout) (depth : UInt8) (preImage : BArr 32)
    (key : BArr 32) (sig : BArr 64) (hk : publicKeyToAddress E.H key = h.recipient) :
    CanPay E n a b v height
      (1 :: h.hash.algorithm :: depth :: (h.hash.bytes.val ++ preImage.val ++ (key.val ++ 0 :: sig.val))) := by
  refine canPay_of hn hab h0 hb (x := .htlc { h with value := h.value - v }) ?_ ?_ ?_
  · rw [ha]
    exact (C61_debit_iff ..).mpr ⟨_, rfl, hv, .regular _ _ _ ht (by rw [← hk]; exact proofOf_key ..), rfl⟩
  · rw [ha]; show (h.value - v).toNat + _ = h.value.toNat
    rw [UInt64.toNat_sub_of_le _ _ hv]
    have := UInt64.le_iff_toNat_le.mp hv; omega
  · rw [ha]; rfl

/-- C87: sender and recipient together can resolve an HTLC at any time. -/
theorem C87_htlc_early (hn : Reach E n) (a b : Addr) (h : HTLCAccount) (ha : accountOf n a = .htlc h) (hab : a ≠ b)
    (hb : (accountOf n b).type = 0) (v : UInt64) (hv : v ≤ h.value) (height : UInt32) (h0 : height ≠ 0)
    (key1 key2 : BArr 32) (sig1 sig2 : BArr 64) (hk1 : publicKeyToAddress E.H key1 = h.recipient)
    (hk2 : publicKeyToAddress E.H key2 = h.sender) :
    CanPay E n a b v height (2 :: ((key1.val ++ 0 :: sig1.val) ++ (key2.val ++ 0 :: sig2.val))) := by
  refine canPay_of hn hab h0 hb (x := .htlc { h with value := h.value - v }) ?_ ?_ ?_
  · rw [ha]
    exact (C61_debit_iff ..).mpr ⟨_, rfl, hv, .early _ _ (by rw [← hk1]; exact proofOf_key ..)
      (by rw [← hk2]; exact proofOf_key ..), rfl⟩
  · rw [ha]; show (h.value - v).toNat + _ = h.value.toNat
    rw [UInt64.toNat_sub_of_le _ _ hv]
    have := UInt64.le_iff_toNat_le.mp hv; omega
  · rw [ha]; rfl

/-- C87: the owner of a vesting contract can take out what is unlocked (and in the contract). -/
theorem C87_vesting (hn : Reach E n) (a b : Addr) (c : VestingAccount) (ha : accountOf n a = .vesting c) (hab : a ≠ b)
    (hb : (accountOf n b).type = 0) (v : UInt64) (hv : v ≤ c.value) (height : UInt32)
    (hu : v ≤ amountUnlocked E c height) (h0 : height ≠ 0)
    (key : BArr 32) (sig : BArr 64) (hk : publicKeyToAddress E.H key = c.owner) :
    CanPay E n a b v height (key.val ++ 0 :: sig.val) := by
  refine canPay_of hn hab h0 hb (x := .vesting { c with value := c.value - v }) ?_ ?_ ?_
  · rw [ha]
    exact (C60_debit_iff ..).mpr ⟨_, rfl, hu, by rw [← hk]; exact proofOf_key .., rfl⟩
  · rw [ha]; show (c.value - v).toNat + _ = c.value.toNat
    rw [UInt64.toNat_sub_of_le _ _ hv]
    have := UInt64.le_iff_toNat_le.mp hv; omega
  · rw [ha]; rfl

/-- C87: after the last step nothing stays locked. If `k` steps release the whole balance, the owner of the contract can
take out any part of it at the height of the `k`-th step. (Amounts below `2^53`, more than all money there will ever be.) -/
theorem C87_vesting_end (hn : Reach E n) (a b : Addr) (c : VestingAccount) (ha : accountOf n a = .vesting c) (hab : a ≠ b)
    (hb : (accountOf n b).type = 0) (v : UInt64) (hv : v ≤ c.value) (height : UInt32) (k : Nat) (hk0 : 0 < k)
    (hsb : c.vestingStepBlocks ≠ 0) (hsa : c.vestingStepAmount ≠ 0)
    (hh : height.toNat = c.vestingStart.toNat + k * c.vestingStepBlocks.toNat)
    (hle : c.value.toNat ≤ k * c.vestingStepAmount.toNat) (hlt : k * c.vestingStepAmount.toNat < 2 ^ 53)
    (key : BArr 32) (sig : BArr 64) (hk : publicKeyToAddress E.H key = c.owner) :
    CanPay E n a b v height (key.val ++ 0 :: sig.val) := by
  have hb' : 0 < c.vestingStepBlocks.toNat := by
    rcases Nat.eq_zero_or_pos c.vestingStepBlocks.toNat with h | h
    · exact absurd (UInt32.toNat_inj.mp h) hsb
    · exact h
  have := Nat.mul_pos hk0 hb'
  refine C87_vesting hn a b c ha hab hb v hv height ?_ (fun h0 => ?_) key sig hk
  · rw [UInt64.le_iff_toNat_le, C60_whole_steps E c height k hk0 hsb hsa hh hlt]
    have := UInt64.le_iff_toNat_le.mp hv; omega
  · rw [h0] at hh; simp at hh; omega

/-- The hypotheses are met: an HTLC of 5 (resp. a vesting contract of 6 with 3 steps of 2 every 10 blocks) whose sender (resp.
owner) has a key. -/
example (E : Env) (key : BArr 32) (a b : Addr) (hab : a ≠ b) :
    ∃ n h, Reach E n ∧ accountOf n a = .htlc h ∧ (accountOf n b).type = 0 ∧ (5 : UInt64) ≤ h.value ∧ h.timeout < 11 ∧
      publicKeyToAddress E.H key = h.sender :=
  ⟨(Node.putAccount E.H a (some (.htlc ⟨5, publicKeyToAddress E.H key, b, ⟨3, BArr.zero 32⟩, 1, 10, 5⟩)) newNode).2, _,
    .put _ _ .new, by rw [accountOf_put .new, AMap.set_same],
    by rw [accountOf_put .new, AMap.set_ne _ _ (Ne.symm hab), accountOf_new]; rfl, UInt64.le_refl _,
    by show (10 : UInt32) < 11; decide, rfl⟩

example (E : Env) (key : BArr 32) (a b : Addr) (hab : a ≠ b) :
    ∃ n c, Reach E n ∧ accountOf n a = .vesting c ∧ (accountOf n b).type = 0 ∧ (6 : UInt64) ≤ c.value ∧
      c.vestingStepBlocks ≠ 0 ∧ c.vestingStepAmount ≠ 0 ∧ (35 : UInt32).toNat = c.vestingStart.toNat + 3 * c.vestingStepBlocks.toNat ∧
      c.value.toNat ≤ 3 * c.vestingStepAmount.toNat ∧ 3 * c.vestingStepAmount.toNat < 2 ^ 53 ∧
      publicKeyToAddress E.H key = c.owner :=
  ⟨(Node.putAccount E.H a (some (.vesting ⟨6, publicKeyToAddress E.H key, 5, 10, 2, 6⟩)) newNode).2, _,
    .put _ _ .new, by rw [accountOf_put .new, AMap.set_same],
    by rw [accountOf_put .new, AMap.set_ne _ _ (Ne.symm hab), accountOf_new]; rfl, UInt64.le_refl _,
    by show (10 : UInt32) ≠ 0; decide, by show (2 : UInt64) ≠ 0; decide, rfl, by show 6 ≤ 3 * 2; decide,
    by show 3 * 2 < 2 ^ 53; decide, rfl⟩

/-! ## C88 -/

/-- C88 is false: money is released between the steps. In the middle of the first step already a part of the step amount
(whenever that part is at least 2) can be spent. -/
theorem C88_between_steps_violated (E : Env) (c : VestingAccount) (d : Nat) (height : UInt32)
    (hh : height.toNat = c.vestingStart.toNat + d) (hd : d < c.vestingStepBlocks.toNat)
    (h2 : 2 * c.vestingStepBlocks.toNat ≤ d * c.vestingStepAmount.toNat) (hlt : c.vestingStepAmount.toNat < 2 ^ 63) :
    0 < amountUnlocked E c height := by
  have hB : 0 < c.vestingStepBlocks.toNat := by omega
  have hpos : 0 < d * c.vestingStepAmount.toNat := by omega
  have hd0 : 0 < d := Nat.pos_of_mul_pos_right hpos
  have hA0 : 0 < c.vestingStepAmount.toNat := Nat.pos_of_mul_pos_left hpos
  have hs : c.vestingStart < height := by rw [UInt32.lt_iff_toNat_lt]; omega
  have hsub : height.toNat - c.vestingStart.toNat = d := by omega
  have := (C60_amount E c height hs (fun h => by rw [h] at hB; simp at hB) (fun h => by rw [h] at hA0; simp at hA0) (by
    rw [hsub]
    calc d * c.vestingStepAmount.toNat < c.vestingStepBlocks.toNat * c.vestingStepAmount.toNat :=
          Nat.mul_lt_mul_of_pos_right hd hA0
      _ ≤ c.vestingStepBlocks.toNat * 2 ^ 63 := Nat.mul_le_mul_left _ hlt.le
      _ = _ := Nat.mul_comm _ _)).1
  rw [hsub] at this
  have hBq : (0 : ℚ) < c.vestingStepBlocks.toNat := by exact_mod_cast hB
  have h2q : (2 : ℚ) ≤ (d : ℚ) / c.vestingStepBlocks.toNat * c.vestingStepAmount.toNat := by
    rw [div_mul_eq_mul_div, le_div_iff₀ hBq]
    exact_mod_cast h2
  have e : (1 : ℚ) ≤ 2 * (1 - 1 / 2 ^ 53) ^ 3 := by norm_num
  have hq : (0 : ℚ) < (amountUnlocked E c height).toNat := by
    have : (2 : ℚ) * (1 - 1 / 2 ^ 53) ^ 3 ≤ (d : ℚ) / c.vestingStepBlocks.toNat * c.vestingStepAmount.toNat *
        (1 - 1 / 2 ^ 53) ^ 3 := mul_le_mul_of_nonneg_right h2q (by norm_num)
    linarith
  rw [UInt64.lt_iff_toNat_lt]
  exact_mod_cast hq

example : ∃ (c : VestingAccount) (d : Nat) (height : UInt32), height.toNat = c.vestingStart.toNat + d ∧
    d < c.vestingStepBlocks.toNat ∧ 2 * c.vestingStepBlocks.toNat ≤ d * c.vestingStepAmount.toNat ∧
    c.vestingStepAmount.toNat < 2 ^ 63 :=
  ⟨⟨1000, BArr.zero 20, 100, 10, 1000, 1000⟩, 1, 101, rfl, by show 1 < 10; decide, by show 2 * 10 ≤ 1 * 1000; decide,
    by show 1000 < 2 ^ 63; decide⟩

/-- C88 is false: the contract's total amount is never looked at. Replacing it by any other number does not change which
transactions are accepted, nor how much they take. -/
theorem C88_total_ignored_violated (E : Env) (c : VestingAccount) (total : UInt64) (tx : Tx) (height : UInt32) :
    amountUnlocked E { c with vestingTotalAmount := total } height = amountUnlocked E c height ∧
    ∀ v, applyOutgoing E (.vesting c) tx height = .ok (.vesting { c with value := v }) →
      applyOutgoing E (.vesting { c with vestingTotalAmount := total }) tx height =
        .ok (.vesting { c with value := v, vestingTotalAmount := total }) := by
  refine ⟨rfl, fun v h => ?_⟩
  obtain ⟨t, rfl, h1, h2, h3⟩ := (C60_debit_iff ..).mp h
  refine (C60_debit_iff ..).mpr ⟨t, rfl, h1, h2, ?_⟩
  injection h3 with h3
  have : v = c.value - t.value := congrArg VestingAccount.value h3
  rw [this]

end Nimiq.Accounts
