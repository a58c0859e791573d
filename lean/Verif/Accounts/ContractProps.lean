import Verif.Accounts.Unlock
/-!
# C60, C61, C63, C65: contracts and account types

A concrete block that meets the hypotheses of these theorems, and the theorems applied to it: Accounts/Witness.lean.
-/
namespace Nimiq.Accounts
open Beserial Beserial.Spec Wire Spec Float64

variable {E : Env} {n n' : Node}

/-- In a successful push, the sender step of each transaction succeeded on the sender's account as it was before the block,
but for its balance. -/
theorem sender_at (hn : Reach E n) {block : Block} {body : Body} (hb : block.body = some body)
    (h : Push E block n = (.ok (), n')) {tx : Tx} (ht : tx ∈ body.txs) :
    ((tx.getSender E.H).2 = 0xFF ∨ (tx.getSender E.H).2 = (accountOf n (tx.getSender E.H).1).type) ∧
    ∃ v x, applyOutgoing E (withBalance (accountOf n (tx.getSender E.H).1) v) tx block.height = .ok x := by
  obtain ⟨body', hb', _, s1, _⟩ := push_iff.mp (push_map hn h)
  rw [hb] at hb'; cases hb'
  obtain ⟨pre, post, he⟩ := List.append_of_mem ht
  obtain ⟨h1, x, h2⟩ := s1 pre tx post he
  rw [type_afterSenders] at h1
  exact ⟨h1, _, x, h2⟩

theorem accountOf_put (hn : Reach E n) (a : Addr) (acc : Account) :
    accountOf (Node.putAccount E.H a (some acc) n).2 = AMap.set (accountOf n) a acc :=
  (hn.acc.putAccount a (some acc)).2.accountOf

theorem accountOf_new : accountOf newNode = fun _ => .basic ⟨0⟩ := (rel_new (fun _ => BArr.zero 32)).accountOf

/-! ## C60 -/

/-- C60. A vesting account is debited iff the transaction is in the extended format, its value is at most the unlocked amount
and its proof is a signature proof of the owner; only the value leaves the account. -/
theorem C60_debit_iff (E : Env) (c : VestingAccount) (tx : Tx) (height : UInt32) (x : Account) :
    applyOutgoing E (.vesting c) tx height = .ok x ↔
      ∃ t, tx = .extended t ∧ t.value ≤ amountUnlocked E c height ∧ ProofOf E.H t.proof c.owner ∧
        x = .vesting { c with value := c.value - t.value } := vestingOutgoing_iff

/-- C60. Nothing is unlocked up to and including the start height. -/
theorem C60_locked_before_start (E : Env) (c : VestingAccount) (height : UInt32) (h : height ≤ c.vestingStart) :
    amountUnlocked E c height = 0 := by
  unfold amountUnlocked; rw [if_pos h]

/-- C60 for blocks: in a successful push, every transaction sent by an account that was a vesting account before the block has
a signature proof of the owner, and until the start height none of them moves any money. -/
theorem C60_block (hn : Reach E n) (block : Block) (body : Body) (hb : block.body = some body)
    (h : Push E block n = (.ok (), n')) (tx : Tx) (ht : tx ∈ body.txs) (c : VestingAccount)
    (hc : accountOf n (tx.getSender E.H).1 = .vesting c) :
    ∃ t, tx = .extended t ∧ ProofOf E.H t.proof c.owner ∧ (block.height ≤ c.vestingStart → t.value = 0) ∧
      (c.vestingStepBlocks ≠ 0 → c.vestingStepAmount ≠ 0 → t.value ≤ amountUnlocked E c block.height) := by
  obtain ⟨_, v, x, hx⟩ := sender_at hn hb h ht
  rw [hc] at hx
  obtain ⟨t, rfl, h1, h2, _⟩ := (C60_debit_iff E { c with value := v } tx block.height x).mp hx
  refine ⟨t, rfl, h2, fun hh => ?_, fun hsb hsa => ?_⟩
  · rw [C60_locked_before_start E { c with value := v } _ hh] at h1
    exact UInt64.le_zero_iff.mp h1
  · by_cases hh : block.height ≤ c.vestingStart
    · rw [C60_locked_before_start E { c with value := v } _ hh] at h1
      rw [C60_locked_before_start E c _ hh]; exact h1
    · have hs := UInt32.not_le.mp hh
      rw [amountUnlocked_eq (c := { c with value := v }) hs hsb hsa] at h1
      rw [amountUnlocked_eq hs hsb hsa]
      exact h1

/-- C60. The unlocked amount never decreases with height, as long as the exact amount stays below `2^63` (the result of a
conversion from floats above the range of `uint64` is not defined by the language). -/
theorem C60_monotone (E : Env) (c : VestingAccount) (h1 h2 : UInt32) (hle : h1 ≤ h2)
    (hlt : (h2.toNat - c.vestingStart.toNat) * c.vestingStepAmount.toNat < 2 ^ 63 * c.vestingStepBlocks.toNat ∨
      c.vestingStepBlocks = 0 ∨ c.vestingStepAmount = 0) :
    amountUnlocked E c h1 ≤ amountUnlocked E c h2 := by
  by_cases hs1 : h1 ≤ c.vestingStart
  · rw [C60_locked_before_start E c h1 hs1]; exact UInt64.zero_le
  have hs1' := UInt32.not_le.mp hs1
  have hs2' : c.vestingStart < h2 := UInt32.lt_of_lt_of_le hs1' hle
  by_cases hz : c.vestingStepBlocks = 0 ∨ c.vestingStepAmount = 0
  · unfold amountUnlocked
    rw [if_neg hs1, if_pos hz, if_neg (UInt32.not_le.mpr hs2'), if_pos hz]
    exact UInt64.le_refl _
  have hlt' := hlt.resolve_right hz
  push Not at hz
  rw [amountUnlocked_eq hs1' hz.1 hz.2, amountUnlocked_eq hs2' hz.1 hz.2]
  have hb2 := h2.toNat_lt
  rw [UInt32.le_iff_toNat_le] at hle
  have hd : h1.toNat - c.vestingStart.toNat ≤ h2.toNat - c.vestingStart.toNat := by omega
  have hm := rawUnlocked_mono c hd
  have hr2 := rawUnlocked_lt c (d := h2.toNat - c.vestingStart.toNat) (by omega) hlt'
  have hr1 := lt_of_le_of_lt hm hr2
  rw [if_pos hr1, if_pos hr2, UInt64.le_iff_toNat_le, ofNat_floor (rawUnlocked_nonneg c _) hr1,
    ofNat_floor (rawUnlocked_nonneg c _) hr2]
  exact Int.toNat_le_toNat (Int.floor_mono hm)

/-- C60. After `k` whole steps exactly `k` times the step amount is unlocked: the floating point computation is exact there
(for amounts below `2^53`, which is more than all money there will ever be). -/
theorem C60_whole_steps (E : Env) (c : VestingAccount) (height : UInt32) (k : Nat) (hk : 0 < k)
    (hb : c.vestingStepBlocks ≠ 0) (ha : c.vestingStepAmount ≠ 0)
    (hh : height.toNat = c.vestingStart.toNat + k * c.vestingStepBlocks.toNat)
    (hlt : k * c.vestingStepAmount.toNat < 2 ^ 53) :
    (amountUnlocked E c height).toNat = k * c.vestingStepAmount.toNat := by
  have hb' : 0 < c.vestingStepBlocks.toNat := by
    rcases Nat.eq_zero_or_pos c.vestingStepBlocks.toNat with h | h
    · exact absurd (UInt32.toNat_inj.mp h) hb
    · exact h
  have hkb : 0 < k * c.vestingStepBlocks.toNat := Nat.mul_pos hk hb'
  have hs : c.vestingStart < height := by rw [UInt32.lt_iff_toNat_lt]; omega
  have hd : height.toNat - c.vestingStart.toNat = k * c.vestingStepBlocks.toNat := by omega
  have hlt32 := height.toNat_lt
  have hkle : k ≤ k * c.vestingStepBlocks.toNat := Nat.le_mul_of_pos_right k hb'
  have hale : c.vestingStepAmount.toNat ≤ k * c.vestingStepAmount.toNat := Nat.le_mul_of_pos_left _ hk
  have hraw : rawUnlocked c (k * c.vestingStepBlocks.toNat) = ((k * c.vestingStepAmount.toNat : ℕ) : ℚ) := by
    unfold rawUnlocked
    rw [fl_nat (n := k * c.vestingStepBlocks.toNat) (by omega), fl_u32, fl_nat (n := c.vestingStepAmount.toNat) (by omega)]
    have : ((k * c.vestingStepBlocks.toNat : ℕ) : ℚ) / c.vestingStepBlocks.toNat = k := by
      have hq : (c.vestingStepBlocks.toNat : ℚ) ≠ 0 := by exact_mod_cast hb'.ne'
      push_cast
      field_simp
    rw [this, fl_nat (n := k) (by omega)]
    have e : (k : ℚ) * c.vestingStepAmount.toNat = ((k * c.vestingStepAmount.toNat : ℕ) : ℚ) := by push_cast; ring
    rw [e, fl_nat hlt]
  rw [amountUnlocked_eq hs hb ha, hd, hraw]
  have h64 : ((k * c.vestingStepAmount.toNat : ℕ) : ℚ) < 2 ^ 64 := by
    have : k * c.vestingStepAmount.toNat < 2 ^ 64 := by omega
    exact_mod_cast this
  rw [if_pos h64, ofNat_floor (by positivity) h64, Int.floor_natCast, Int.toNat_natCast]

/-- C60. Everywhere, the unlocked amount is the exact `(height - start) / stepBlocks * stepAmount`, up to rounding down and a
relative error of about `3 / 2^53`. -/
theorem C60_amount (E : Env) (c : VestingAccount) (height : UInt32) (hs : c.vestingStart < height)
    (hb : c.vestingStepBlocks ≠ 0) (ha : c.vestingStepAmount ≠ 0)
    (hlt : (height.toNat - c.vestingStart.toNat) * c.vestingStepAmount.toNat < 2 ^ 63 * c.vestingStepBlocks.toNat) :
    let exact : ℚ := (height.toNat - c.vestingStart.toNat : ℕ) / c.vestingStepBlocks.toNat * c.vestingStepAmount.toNat
    exact * (1 - 1 / 2 ^ 53) ^ 3 - 1 < (amountUnlocked E c height).toNat ∧
    ((amountUnlocked E c height).toNat : ℚ) ≤ exact * (1 + 1 / 2 ^ 53) ^ 3 := by
  intro exact
  have h32 := height.toNat_lt
  have hd : height.toNat - c.vestingStart.toNat < 2 ^ 32 := by omega
  have hr := rawUnlocked_lt c hd hlt
  obtain ⟨e1, e2⟩ := rawUnlocked_error c hd
  have h0 := rawUnlocked_nonneg c (height.toNat - c.vestingStart.toNat)
  rw [amountUnlocked_eq hs hb ha, if_pos hr, ofNat_floor h0 hr]
  have hf : (0 : ℤ) ≤ ⌊rawUnlocked c (height.toNat - c.vestingStart.toNat)⌋ := Int.floor_nonneg.mpr h0
  have hc : ((⌊rawUnlocked c (height.toNat - c.vestingStart.toNat)⌋.toNat : ℕ) : ℚ) =
      ((⌊rawUnlocked c (height.toNat - c.vestingStart.toNat)⌋ : ℤ) : ℚ) := by
    exact_mod_cast Int.toNat_of_nonneg hf
  rw [hc]
  have f1 := Int.floor_le (rawUnlocked c (height.toNat - c.vestingStart.toNat))
  have f2 := Int.lt_floor_add_one (rawUnlocked c (height.toNat - c.vestingStart.toNat))
  constructor
  · have : exact * (1 - 1 / 2 ^ 53) ^ 3 ≤ rawUnlocked c (height.toNat - c.vestingStart.toNat) := e1
    linarith
  · exact f1.trans e2

/-! ## C61 -/

/-- C61. An HTLC is debited iff the transaction is in the extended format, its value is at most the balance and its proof is
of one of the three kinds: hash root and recipient's proof up to the timeout; recipient's and sender's proofs; or the
sender's proof after the timeout. -/
theorem C61_debit_iff (E : Env) (c : HTLCAccount) (tx : Tx) (height : UInt32) (x : Account) :
    applyOutgoing E (.htlc c) tx height = .ok x ↔
      ∃ t, tx = .extended t ∧ t.value ≤ c.value ∧ HTLCProof E.H c height t.proof ∧
        x = .htlc { c with value := c.value - t.value } := htlcOutgoing_iff

theorem HTLCProof.congr {H : Bytes → Hash32} {c : HTLCAccount} {v : UInt64} {height : UInt32} {p : Bytes}
    (h : HTLCProof H { c with value := v } height p) : HTLCProof H c height p := by
  cases h with
  | regular d pre p h1 h2 => exact .regular d pre p h1 h2
  | early p1 p2 h1 h2 => exact .early p1 p2 h1 h2
  | timeout p h1 h2 => exact .timeout p h1 h2

/-- C61 for blocks: in a successful push, every transaction sent by an account that was an HTLC before the block carries such a
proof, and together they send no more than its balance. -/
theorem C61_block (hn : Reach E n) (block : Block) (body : Body) (hb : block.body = some body)
    (h : Push E block n = (.ok (), n')) (a : Addr) (c : HTLCAccount) (hc : accountOf n a = .htlc c) :
    (∀ tx ∈ body.txs, (tx.getSender E.H).1 = a → ∃ t, tx = .extended t ∧ HTLCProof E.H c block.height t.proof) ∧
    sentValue E.H body.txs a ≤ c.value.toNat := by
  refine ⟨fun tx ht hs => ?_, ?_⟩
  · obtain ⟨_, v, x, hx⟩ := sender_at hn hb h ht
    rw [hs, hc] at hx
    obtain ⟨t, rfl, _, h2, _⟩ := (C61_debit_iff E { c with value := v } tx block.height x).mp hx
    exact ⟨t, rfl, HTLCProof.congr h2⟩
  · have := C57_htlc hn block body hb h a (by rw [hc]; rfl)
    rwa [hc] at this

/-- C61, last clause, is false: neither the pre-image nor the hash depth matters. The recipient can spend with any 32 bytes
as the pre-image, whatever the hash root. -/
theorem C61_preimage_violated (E : Env) (c : HTLCAccount) (t : ExtendedTx) (height : UInt32) (key : BArr 32) (sig : BArr 64)
    (hto : height ≤ c.timeout) (hv : t.value ≤ c.value) (hr : c.recipient = publicKeyToAddress E.H key)
    (depth : UInt8) (preImage : BArr 32)
    (hp : t.proof = 1 :: c.hash.algorithm :: depth :: (c.hash.bytes.val ++ preImage.val ++ (key.val ++ 0 :: sig.val))) :
    applyOutgoing E (.htlc c) (.extended t) height = .ok (.htlc { c with value := c.value - t.value }) := by
  refine (C61_debit_iff ..).mpr ⟨t, rfl, hv, ?_, rfl⟩
  rw [hp]
  refine .regular _ _ _ hto ⟨⟨key, ⟨⟨0, []⟩, []⟩, sig⟩, ⟨by show 0 = BitSet.size 0; decide, rfl⟩, by simp [proofBytes], ?_⟩
  rw [hr]
  exact C52_empty E.H _ rfl

example (E : Env) (key : BArr 32) (sig : BArr 64) : ∃ (c : HTLCAccount) (t : ExtendedTx), (10 : UInt32) ≤ c.timeout ∧
    t.value ≤ c.value ∧ 0 < t.value ∧ c.recipient = publicKeyToAddress E.H key ∧
    t.proof = 1 :: c.hash.algorithm :: 1 :: (c.hash.bytes.val ++ (BArr.zero 32).val ++ (key.val ++ 0 :: sig.val)) :=
  ⟨⟨5, BArr.zero 20, publicKeyToAddress E.H key, ⟨3, BArr.zero 32⟩, 1, 20, 5⟩,
   ⟨[], BArr.zero 20, 2, BArr.zero 20, 0, 5, 0, 1, 1, 0, _⟩, by show (10 : UInt32) ≤ 20; decide, by show (5 : UInt64) ≤ 5; decide, by show (0 : UInt64) < 5; decide, rfl, rfl⟩

/-! ## C63 -/

/-- C63. In a successful push, every transaction with the creation flag is in the extended format and its data describe a
contract of its recipient type (vesting or HTLC); its recipient was a basic account before. -/
theorem C63_accepted (hn : Reach E n) (block : Block) (body : Body) (hb : block.body = some body)
    (h : Push E block n = (.ok (), n')) (tx : Tx) (ht : tx ∈ body.txs)
    (hf : (tx.content E.H).flags &&& 0x01 ≠ 0) :
    (accountOf n tx.getRecipient.1).type = 0 ∧ ∃ t x, tx = .extended t ∧ NewContract t 0 x := by
  obtain ⟨body', hb', _, _, s2, s3, _⟩ := push_iff.mp (push_map hn h)
  rw [hb] at hb'; cases hb'
  have hc := (creates_iff E.H tx).mpr hf
  obtain ⟨x, hx⟩ := s3 tx ht hc
  obtain ⟨t, rfl, hnc⟩ := (contractOf_iff hc).mp hx
  exact ⟨(s2 _ ht).1, t, x, rfl, hnc⟩

/-- C63. The data determine the contract: it is accepted iff they have one of the layouts, and the balance is what the account
had. -/
theorem C63_data_iff (t : ExtendedTx) (height : UInt32) (bal : UInt64) (x : Account) :
    (initVesting (.extended t) height bal = .ok x ↔ ∃ c, x = .vesting c ∧ VestingData t.value bal t.data c) ∧
    (initHTLC (.extended t) height bal = .ok x ↔ ∃ c, x = .htlc c ∧ HTLCData t.value bal t.data c) :=
  ⟨initVesting_iff, initHTLC_iff⟩

/-- C63. The length of the data of an accepted creation is 24, 36 or 44 (vesting) or 78 (HTLC); the balance is kept. -/
theorem C63_lengths (t : ExtendedTx) (bal : UInt64) (x : Account) (h : NewContract t bal x) :
    (t.recipientType = 1 ∧ (t.data.length = 24 ∨ t.data.length = 36 ∨ t.data.length = 44) ∨
      t.recipientType = 2 ∧ t.data.length = 78) ∧ funds x = bal.toNat := by
  have l20 : ∀ o : Addr, o.val.length = 20 := fun o => o.property
  have l32 : ∀ o : Hash32, o.val.length = 32 := fun o => o.property
  cases x with
  | basic a => exact h.elim
  | vesting c =>
    obtain ⟨h1, h2⟩ := h
    generalize t.data = d at *
    cases h2 with
    | short => exact ⟨.inl ⟨h1, .inl (by simp [digits_length, l20])⟩, rfl⟩
    | medium => exact ⟨.inl ⟨h1, .inr (.inl (by simp [digits_length, l20]))⟩, rfl⟩
    | long => exact ⟨.inl ⟨h1, .inr (.inr (by simp [digits_length, l20]))⟩, rfl⟩
  | htlc c =>
    obtain ⟨h1, h2⟩ := h
    generalize t.data = d at *
    cases h2 with
    | mk s r hs ct tot h0 => exact ⟨.inr ⟨h1, by simp [digits_length, l20, l32]⟩, rfl⟩

/-- C63. After a successful push, an address that got a creation transaction and sent nothing holds the contract described by
the last such transaction, with the previous balance plus everything it received in the block (modulo `2^64`). -/
theorem C63_created (hn : Reach E n) (block : Block) (body : Body) (hb : block.body = some body)
    (h : Push E block n = (.ok (), n')) (a : Addr)
    (hcr : ∃ tx ∈ body.txs, tx.getRecipient.1 = a ∧ (tx.content E.H).flags &&& 0x01 ≠ 0)
    (hs : ∀ tx ∈ body.txs, (tx.getSender E.H).1 ≠ a) :
    ∃ pre t post, body.txs = pre ++ .extended t :: post ∧ t.recipient = a ∧ t.flags &&& 0x01 ≠ 0 ∧
      (∀ tx ∈ post, tx.getRecipient.1 = a → (tx.content E.H).flags &&& 0x01 = 0) ∧
      ∃ bal : UInt64, bal.toNat = (funds (accountOf n a) + receivedValue body.txs a) % 2 ^ 64 ∧
        NewContract t bal (accountOf n' a) := by
  obtain ⟨body', hb', _, s1, s2, s3, s4, s5, s6⟩ := push_iff.mp (push_map hn h)
  rw [hb] at hb'; cases hb'
  generalize hm : accountOf n = m at *
  -- the last creation
  have hlast : ∃ tx, lastCreate a body.txs = some tx := by
    obtain ⟨tx, ht, h1, h2⟩ := hcr
    cases hl : lastCreate a body.txs with
    | some tx => exact ⟨tx, rfl⟩
    | none =>
      unfold lastCreate at hl
      rw [List.getLast?_eq_none_iff, List.filter_eq_nil_iff] at hl
      exact absurd (by simpa using ⟨(creates_iff E.H tx).mpr h2, h1⟩) (hl tx ht)
  obtain ⟨tx, hl⟩ := hlast
  obtain ⟨ys, hys⟩ := List.getLast?_eq_some_iff.mp hl
  have hys' : body.txs.filter (fun tx => decide (creates tx = true ∧ tx.getRecipient.1 = a)) = ys ++ tx :: [] := by
    rw [← hys]
  obtain ⟨l1, l2, e1, f1, f2⟩ := List.filter_eq_append_iff.mp hys'
  obtain ⟨l3, post, e2, f3, f4, f5⟩ := List.filter_eq_cons_iff.mp f2
  rw [decide_eq_true_eq] at f4
  have he : body.txs = (l1 ++ l3) ++ tx :: post := by rw [e1, e2, List.append_assoc]
  have htx : tx ∈ body.txs := by rw [he]; simp
  obtain ⟨x0, hx0⟩ := s3 tx htx f4.1
  -- the balance before creation
  have hbal : (afterRecipients body.txs (afterSenders E.H body.txs m) a) =
      withBalance (m a) (balance (m a) + ((receivedBy a body.txs).map fun tx : Tx => tx.amount.1).sum) := by
    have : sentBy E.H a body.txs = [] := by
      unfold sentBy
      rw [List.filter_eq_nil_iff]
      intro t ht hta
      exact hs t ht (by simpa using hta)
    simp [afterRecipients, afterSenders, this]
  have hx := contractOf_total (b' := balance (m a) + ((receivedBy a body.txs).map fun tx : Tx => tx.amount.1).sum) hx0
  have hat : afterTransfers E block body m a = withBalance x0 (balance (m a) +
      ((receivedBy a body.txs).map fun tx : Tx => tx.amount.1).sum) := by
    unfold afterTransfers afterCreate
    rw [hl]
    simp only []
    rw [hbal, balance_withBalance, hx]
  have hap : afterPrune E.H body.txs (afterTransfers E block body m) a = afterTransfers E block body m a := by
    unfold afterPrune
    rw [if_neg]
    rintro ⟨⟨t, ht, hta⟩, _⟩
    exact hs t ht hta
  have hmin : a ≠ body.minerAddr := by
    rintro rfl
    rw [hap, hat, type_withBalance] at s5
    exact (contractOf_ok hx0).2.1 s5
  have hfin : accountOf n' a = withBalance x0 (balance (m a) + ((receivedBy a body.txs).map fun tx : Tx => tx.amount.1).sum) := by
    rw [s6]
    unfold afterInherents
    rw [AMap.set_ne _ _ hmin, hap, hat]
  obtain ⟨t, rfl, hnc⟩ := (contractOf_iff f4.1).mp hx
  refine ⟨l1 ++ l3, t, post, he, f4.2, (creates_iff E.H (.extended t)).mp f4.1, ?_, _, ?_, by rw [hfin]; exact hnc⟩
  · intro t' ht' hr'
    have := List.filter_eq_nil_iff.mp f5 t' ht'
    by_contra hcon
    exact this (by simpa using ⟨(creates_iff E.H t').mpr hcon, hr'⟩)
  · rw [UInt64.toNat_add, funds_eq]
    have key : ∀ l : List Tx, (l.map fun tx : Tx => tx.amount.1).sum.toNat = (l.map value).sum % 2 ^ 64 := by
      intro l
      induction l with
      | nil => rfl
      | cons tx l ih =>
        rw [List.map_cons, List.sum_cons, List.map_cons, List.sum_cons, UInt64.toNat_add, ih]
        have : value tx = tx.amount.1.toNat := rfl
        rw [this]; omega
    rw [key]
    have : receivedValue body.txs a = ((receivedBy a body.txs).map value).sum := rfl
    rw [this]; omega

/-! ## C65 -/

/-- C65. In a successful push, the declared sender type of every transaction is the type of the sender's account, or 0xFF. -/
theorem C65_declared_type_partial (hn : Reach E n) (block : Block) (body : Body) (hb : block.body = some body)
    (h : Push E block n = (.ok (), n')) (tx : Tx) (ht : tx ∈ body.txs) (hff : (tx.getSender E.H).2 ≠ 0xFF) :
    (tx.getSender E.H).2 = (accountOf n (tx.getSender E.H).1).type :=
  (sender_at hn hb h ht).1.resolve_left hff

/-- C65. Likewise the declared recipient type, unless a contract is created: it is basic (0), or 0xFF. -/
theorem C65_recipient_type_partial (hn : Reach E n) (block : Block) (body : Body) (hb : block.body = some body)
    (h : Push E block n = (.ok (), n')) (tx : Tx) (ht : tx ∈ body.txs) (hf : (tx.content E.H).flags &&& 0x01 = 0) :
    (accountOf n tx.getRecipient.1).type = 0 ∧ (tx.getRecipient.2 = 0 ∨ tx.getRecipient.2 = 0xFF) := by
  obtain ⟨body', hb', _, _, s2, _⟩ := push_iff.mp (push_map hn h)
  rw [hb] at hb'; cases hb'
  obtain ⟨h1, h2⟩ := s2 tx ht
  exact ⟨h1, h2.resolve_left fun hc => (creates_iff E.H tx).mp hc hf⟩

/-- C65 is false: in every reachable state with a basic account holding `v`, a transaction from it that declares the type 0xFF
(which no account has) is accepted and moves the money. -/
theorem C65_bypass_violated (hn : Reach E n) (a b c : Addr) (v : UInt64) (height : UInt32) (h0 : height ≠ 0)
    (ha : accountOf n a = .basic ⟨v⟩) (hb : accountOf n b = .basic ⟨0⟩) (hc : accountOf n c = .basic ⟨0⟩)
    (hab : a ≠ b) (hac : a ≠ c) (hbc : b ≠ c) (hash : Hash32) (proof : Bytes) :
    let tx : Tx := .extended ⟨[], a, 0xFF, b, 0, v, 0, 1, 1, 0, proof⟩
    let block : Block := ⟨height, hash, some ⟨c, [tx], []⟩⟩
    (tx.getSender E.H).2 ≠ (accountOf n (tx.getSender E.H).1).type ∧
    (Push E block n).1 = .ok () ∧
    accountOf (Push E block n).2 a = .basic ⟨0⟩ ∧ accountOf (Push E block n).2 b = .basic ⟨v⟩ := by
  intro tx block
  have hs : (tx.getSender E.H).1 = a := rfl
  have hr : tx.getRecipient = (b, 0) := rfl
  have hp := (plain_push_iff (E := E) (block := block) (body := ⟨c, [tx], []⟩) rfl (m := accountOf n)
    (m' := afterInherents height ⟨c, [tx], []⟩ (afterRecipients [tx] (afterSenders E.H [tx] (accountOf n))))
    (by intro t ht; rw [List.mem_singleton.mp ht, hs, ha]; rfl)
    (by intro t ht; rw [List.mem_singleton.mp ht]; exact Bool.eq_false_iff.mpr (mt (creates_iff E.H tx).mp (by show ¬ (0 : UInt8) &&& 0x01 ≠ 0; decide)))).mpr
    ⟨h0, by intro t ht; rw [List.mem_singleton.mp ht]; exact .inl rfl, by
      intro d
      by_cases hd : a = d
      · subst hd
        have : sentBy E.H a [tx] = [tx] := by simp [sentBy, hs]
        rw [this, ha]
        have hv := v.toNat_lt
        show ([(v.toNat + (0 : UInt64).toNat) % 2 ^ 64].sum) ≤ v.toNat
        simp
      · have : sentBy E.H d [tx] = [] := by simp [sentBy, hs, hd]
        rw [this]; simp, by
      intro t ht; rw [List.mem_singleton.mp ht, hr, hb]; exact ⟨rfl, .inl rfl⟩, rfl, by rw [hc]; rfl, rfl⟩
  have q := hn.push_eq block
  rw [hp] at q
  dsimp only at q
  refine ⟨by rw [hs, ha]; show (0xFF : UInt8) ≠ 0; decide, q.1, ?_, ?_⟩
  · rw [q.2]
    have e1 : sentBy E.H a [tx] = [tx] := by simp [sentBy, hs]
    have e2 : receivedBy a [tx] = [] := by simp [receivedBy, hr, Ne.symm hab]
    unfold afterInherents
    rw [AMap.set_ne _ _ (show a ≠ (⟨c, [tx], []⟩ : Body).minerAddr from hac)]
    unfold afterRecipients afterSenders
    rw [e1, e2, ha]
    have : debit (.basic ⟨v⟩) tx = v + 0 := rfl
    simp [withBalance, balance, this]
  · rw [q.2]
    have e1 : sentBy E.H b [tx] = [] := by simp [sentBy, hs, hab]
    have e2 : receivedBy b [tx] = [tx] := by simp [receivedBy, hr]
    unfold afterInherents
    rw [AMap.set_ne _ _ (show b ≠ (⟨c, [tx], []⟩ : Body).minerAddr from hbc)]
    unfold afterRecipients afterSenders
    rw [e1, e2, hb]
    have : tx.amount.1 = v := rfl
    simp [withBalance, balance, this]

end Nimiq.Accounts
