import Verif.Accounts.Unsigned
/-!
# C82, C83: withdrawals and transactions can be repeated
-/
namespace Nimiq.Accounts
open Beserial Beserial.Spec Wire Spec Float64

variable {E : Env} {n n' : Node}

/-! ## The same transaction in every block -/

/-- A transaction between three different accounts (sender, recipient, miner) that stays applicable can be put alone into one
block after the other. `I acc k` says that the sender's account allows it `k` more times. -/
theorem repeat_chain {a b c : Addr} {tx : Tx} (hab : a ≠ b) (hac : a ≠ c) (hbc : b ≠ c)
    (hs : (tx.getSender E.H).1 = a) (hr : tx.getRecipient = (b, 0)) (hcr : creates tx = false)
    (I : Account → Nat → Prop) (hash : Hash32) (heights : List UInt32) (h0 : ∀ h ∈ heights, h ≠ 0)
    (hI : ∀ acc k h, h ∈ heights → I acc (k + 1) → ∃ x, applyOutgoing E acc tx h = .ok x ∧ ¬ Dead x ∧
      x.type = acc.type ∧ I x k)
    (hn : Reach E n) (hst : (tx.getSender E.H).2 = (accountOf n a).type) (hk : I (accountOf n a) heights.length)
    (hb : (accountOf n b).type = 0) (hc : (accountOf n c).type = 0) :
    ∃ n', Chain E n (heights.map fun h => ⟨h, hash, some ⟨c, [tx], []⟩⟩) n' ∧ I (accountOf n' a) 0 ∧
      (accountOf n' b).type = 0 ∧
      (funds (accountOf n b) + heights.length * value tx) % 2 ^ 64 = funds (accountOf n' b) := by
  induction heights generalizing n with
  | nil =>
    refine ⟨n, .nil, hk, hb, ?_⟩
    rw [List.length_nil, Nat.zero_mul, Nat.add_zero, funds_eq, Nat.mod_eq_of_lt (UInt64.toNat_lt _)]
  | cons h hs' ih =>
    obtain ⟨x, hx, hd, ht, hIx⟩ := hI _ _ h (List.mem_cons_self ..) hk
    obtain ⟨q1, q2⟩ := single_push_node hn (hash := hash) (height := h) hab hac hbc (h0 h (List.mem_cons_self ..)) hs
      (.inr hst) hr hcr hx hd hb hc
    have ea : accountOf (Push E ⟨h, hash, some ⟨c, [tx], []⟩⟩ n).2 a = x := by
      rw [q2, AMap.set_ne _ _ hac, AMap.set_ne _ _ hab, AMap.set_same]
    have eb : accountOf (Push E ⟨h, hash, some ⟨c, [tx], []⟩⟩ n).2 b =
        withBalance (accountOf n b) (balance (accountOf n b) + tx.amount.1) := by
      rw [q2, AMap.set_ne _ _ hbc, AMap.set_same]
    have ec : (accountOf (Push E ⟨h, hash, some ⟨c, [tx], []⟩⟩ n).2 c).type = 0 := by
      rw [q2, AMap.set_same, type_withBalance]; exact hc
    obtain ⟨n', c1, c2, c3, c4⟩ := ih (n := (Push E ⟨h, hash, some ⟨c, [tx], []⟩⟩ n).2)
      (fun h' hh => h0 h' (List.mem_cons_of_mem _ hh))
      (fun acc k h' hh => hI acc k h' (List.mem_cons_of_mem _ hh)) (.push _ hn)
      (by rw [ea, ht]; exact hst) (by rw [ea]; exact hIx) (by rw [eb, type_withBalance]; exact hb) ec
    refine ⟨n', .cons (Prod.ext q1 rfl) c1, c2, c3, ?_⟩
    rw [← c4, eb, funds_eq, funds_eq, balance_withBalance, UInt64.toNat_add, List.length_cons, Nat.add_mul, Nat.one_mul,
      Nat.mod_add_mod]
    show _ = ((balance (accountOf n b)).toNat + value tx + hs'.length * value tx) % 2 ^ 64
    congr 1; omega

/-! ## C82 -/

/-- The unlocked amount of a contract with steps does not depend on what is left in it. -/
theorem unlocked_value (E : Env) (va : VestingAccount) (w : UInt64) (h : UInt32) (hb : va.vestingStepBlocks ≠ 0)
    (ha : va.vestingStepAmount ≠ 0) : amountUnlocked E { va with value := w } h = amountUnlocked E va h := by
  unfold amountUnlocked
  have hc : ¬ (va.vestingStepBlocks = 0 ∨ va.vestingStepAmount = 0) := fun h => h.elim hb ha
  simp only [if_neg hc]

/-- C82 is false: in every reachable state with a vesting account that has steps, an amount `v` that is unlocked can be
withdrawn again and again, in any number of blocks, until less than `v` is left - however little is unlocked. -/
theorem C82_repeated_withdrawal_violated (hn : Reach E n) (a b c : Addr) (va : VestingAccount) (v : UInt64)
    (heights : List UInt32) (h0 : ∀ h ∈ heights, h ≠ 0) (ha : accountOf n a = .vesting va)
    (hb : (accountOf n b).type = 0) (hc : (accountOf n c).type = 0) (hab : a ≠ b) (hac : a ≠ c) (hbc : b ≠ c)
    (hash : Hash32) (proof : Bytes) (hp : ProofOf E.H proof va.owner)
    (hsb : va.vestingStepBlocks ≠ 0) (hsa : va.vestingStepAmount ≠ 0)
    (hv : ∀ h ∈ heights, v ≤ amountUnlocked E va h) (hlt : heights.length * v.toNat < va.value.toNat) :
    let tx : Tx := .extended ⟨[], a, 1, b, 0, v, 0, 1, 1, 0, proof⟩
    ∃ n', Chain E n (heights.map fun h => ⟨h, hash, some ⟨c, [tx], []⟩⟩) n' ∧
      funds (accountOf n a) = funds (accountOf n' a) + heights.length * v.toNat ∧
      (funds (accountOf n b) + heights.length * v.toNat) % 2 ^ 64 = funds (accountOf n' b) := by
  intro tx
  obtain ⟨n', c1, ⟨w, hw1, hw2, hw3⟩, _, c4⟩ := repeat_chain (tx := tx) hab hac hbc rfl rfl (creates_flags0 rfl)
    (fun acc k => ∃ w : UInt64, acc = .vesting { va with value := w } ∧ k * v.toNat < w.toNat ∧
      w.toNat + (heights.length - k) * v.toNat = va.value.toNat ∧ k ≤ heights.length)
    hash heights h0 (by
      rintro acc k h hh ⟨w, rfl, hk, he, hkl⟩
      have hvw : v ≤ w := by
        rw [UInt64.le_iff_toNat_le]
        rw [Nat.add_mul] at hk; omega
      have hsub := UInt64.toNat_sub_of_le _ _ hvw
      have hk' : k * v.toNat < (w - v).toNat := by rw [hsub]; rw [Nat.add_mul] at hk; omega
      refine ⟨.vesting { va with value := w - v }, (C60_debit_iff ..).mpr ⟨_, rfl, ?_, hp, rfl⟩, ?_, rfl,
        w - v, rfl, hk', ?_, by omega⟩
      · rw [unlocked_value E va w h hsb hsa]; exact hv h hh
      · intro hd
        have := congrArg UInt64.toNat hd.1
        have e : (balance (.vesting { va with value := w - v })).toNat = (w - v).toNat := rfl
        rw [e] at this
        simp only [UInt64.toNat_zero] at this
        omega
      · rw [hsub]
        have e1 : heights.length - k = (heights.length - (k + 1)) + 1 := by omega
        rw [e1, Nat.add_mul]
        rw [UInt64.le_iff_toNat_le] at hvw
        omega)
    hn (by rw [ha]; rfl) ⟨va.value, by rw [ha], hlt, by rw [Nat.sub_self, Nat.zero_mul, Nat.add_zero], Nat.le_refl _⟩ hb hc
  refine ⟨n', c1, ?_, c4⟩
  rw [ha, hw1]
  show va.value.toNat = w.toNat + _
  rw [← hw3.1, Nat.sub_zero]

/-- C82, partial: only contracts without steps. What such a contract sends in a block is covered by its balance before the
block; and nothing leaves it until the start height. -/
theorem C82_stepless_partial (hn : Reach E n) (block : Block) (body : Body) (hb : block.body = some body)
    (h : Push E block n = (.ok (), n')) (a : Addr) (va : VestingAccount) (ha : accountOf n a = .vesting va)
    (hstep : va.vestingStepBlocks = 0 ∨ va.vestingStepAmount = 0) :
    sentValue E.H body.txs a ≤ funds (accountOf n a) ∧
    (block.height ≤ va.vestingStart → sentValue E.H body.txs a = 0) := by
  obtain ⟨body', m1, m2, m3, m4, hb', h1, _⟩ := push_ok (push_map hn h)
  rw [hb] at hb'; cases hb'
  rw [pushSenders_eq] at h1
  have key : ∀ (txs : List Tx) (m m' : AMap) (w : UInt64),
      forTxs txs (senderStep E block.height) m = (.ok (), m') → m a = .vesting { va with value := w } →
      sentValue E.H txs a ≤ w.toNat ∧ (block.height ≤ va.vestingStart → sentValue E.H txs a = 0) := by
    intro txs
    induction txs with
    | nil => intro m m' w _ _; exact ⟨Nat.zero_le _, fun _ => rfl⟩
    | cons tx txs ih =>
      intro m m' w hf hm
      obtain ⟨m1, f1, f2⟩ := forTxs_cons_ok hf
      obtain ⟨x, e1, e2, _⟩ := pushTx_ok f1
      rw [content_sender] at e1 e2
      by_cases hs : (tx.getSender E.H).1 = a
      · rw [hs, hm] at e1
        rw [hs] at e2
        obtain ⟨t, rfl, hv, _, rfl⟩ := (C60_debit_iff ..).mp e1
        have hu : amountUnlocked E { va with value := w } block.height =
            if block.height ≤ va.vestingStart then 0 else w := by
          unfold amountUnlocked
          by_cases hh : block.height ≤ va.vestingStart
          · rw [if_pos hh, if_pos hh]
          · rw [if_neg hh, if_neg hh, if_pos hstep]
        rw [hu] at hv
        have hvw : t.value ≤ w := by
          by_cases hh : block.height ≤ va.vestingStart
          · rw [if_pos hh] at hv; exact UInt64.le_trans hv UInt64.zero_le
          · rwa [if_neg hh] at hv
        obtain ⟨i1, i2⟩ := ih m1 m' (w - t.value) f2 (by rw [e2, AMap.set_same])
        rw [UInt64.toNat_sub_of_le _ _ hvw] at i1
        rw [UInt64.le_iff_toNat_le] at hvw
        have hsent : sentValue E.H (.extended t :: txs) a = t.value.toNat + sentValue E.H txs a := by
          unfold sentValue
          rw [List.filter_cons_of_pos (by simpa using hs), List.map_cons, List.sum_cons]
          rfl
        rw [hsent]
        refine ⟨by omega, fun hh => ?_⟩
        rw [if_pos hh, UInt64.le_iff_toNat_le] at hv
        have := i2 hh
        simp only [UInt64.toNat_zero] at hv
        omega
      · have hsent : sentValue E.H (tx :: txs) a = sentValue E.H txs a := by
          unfold sentValue
          rw [List.filter_cons_of_neg (by simpa using hs)]
        rw [hsent]
        exact ih m1 m' w f2 (by rw [e2, AMap.set_ne _ _ (Ne.symm hs), hm])
  obtain ⟨k1, k2⟩ := key body.txs _ _ va.value h1 ha
  rw [ha]
  exact ⟨k1, k2⟩

/-- The hypotheses of `C82_repeated_withdrawal_violated` are met: at height 1 two units are unlocked of a contract with 10;
four withdrawals of 2 take 8. -/
example (E : Env) (key : BArr 32) (sig : BArr 64) (a b c : Addr) (hab : a ≠ b) (hac : a ≠ c) :
    ∃ n va proof, Reach E n ∧ accountOf n a = .vesting va ∧ (accountOf n b).type = 0 ∧ (accountOf n c).type = 0 ∧
      ProofOf E.H proof va.owner ∧ va.vestingStepBlocks ≠ 0 ∧ va.vestingStepAmount ≠ 0 ∧
      (∀ h ∈ [1, 1, 1, (1 : UInt32)], 2 = amountUnlocked E va h) ∧ 4 * 2 < va.value.toNat := by
  refine ⟨(Node.putAccount E.H a (some (.vesting ⟨10, publicKeyToAddress E.H key, 0, 1, 2, 10⟩)) newNode).2, _,
    key.val ++ 0 :: sig.val, .put _ _ .new, by rw [accountOf_put .new, AMap.set_same], ?_, ?_, ?_, ?_, ?_, ?_, ?_⟩
  · rw [accountOf_put .new, AMap.set_ne _ _ (Ne.symm hab), accountOf_new]; rfl
  · rw [accountOf_put .new, AMap.set_ne _ _ (Ne.symm hac), accountOf_new]; rfl
  · exact ⟨⟨key, ⟨⟨0, []⟩, []⟩, sig⟩, ⟨by show 0 = BitSet.size 0; decide, rfl⟩, by simp [proofBytes], C52_empty E.H _ rfl⟩
  · show (1 : UInt32) ≠ 0; decide
  · show (2 : UInt64) ≠ 0; decide
  · have := C60_whole_steps E ⟨10, publicKeyToAddress E.H key, 0, 1, 2, 10⟩ 1 1 (by decide) (by show (1 : UInt32) ≠ 0; decide)
      (by show (2 : UInt64) ≠ 0; decide) rfl (by show 1 * 2 < 2 ^ 53; decide)
    intro h hh
    have : h = 1 := by simpa using hh
    subst this
    apply UInt64.toNat_inj.mp
    rw [this]; rfl
  · show 4 * 2 < (10 : UInt64).toNat
    decide

/-! ## C83 -/

/-- C83 is false: a transaction can be executed any number of times. In every reachable state in which the sender is a basic
account with enough money, the same transaction is accepted in one block after the other, at any heights. -/
theorem C83_replayed_violated (hn : Reach E n) (t : BasicTx) (c : Addr) (heights : List UInt32)
    (h0 : ∀ h ∈ heights, h ≠ 0)
    (ha : (accountOf n (publicKeyToAddress E.H t.senderPubKey)).type = 0)
    (hb : (accountOf n t.recipient).type = 0) (hc : (accountOf n c).type = 0)
    (hab : publicKeyToAddress E.H t.senderPubKey ≠ t.recipient) (hac : publicKeyToAddress E.H t.senderPubKey ≠ c)
    (hbc : t.recipient ≠ c) (hash : Hash32) (hw : t.value.toNat + t.fee.toNat < 2 ^ 64)
    (hle : heights.length * (t.value.toNat + t.fee.toNat) ≤ funds (accountOf n (publicKeyToAddress E.H t.senderPubKey))) :
    ∃ n', Chain E n (heights.map fun h => ⟨h, hash, some ⟨c, [.basic t], []⟩⟩) n' ∧
      funds (accountOf n (publicKeyToAddress E.H t.senderPubKey)) =
        funds (accountOf n' (publicKeyToAddress E.H t.senderPubKey)) + heights.length * (t.value.toNat + t.fee.toNat) ∧
      (funds (accountOf n t.recipient) + heights.length * t.value.toNat) % 2 ^ 64 = funds (accountOf n' t.recipient) := by
  have hamt : (t.value + t.fee).toNat = t.value.toNat + t.fee.toNat := by
    rw [UInt64.toNat_add, Nat.mod_eq_of_lt hw]
  generalize hA : publicKeyToAddress E.H t.senderPubKey = A at *
  obtain ⟨v0, hv0⟩ : ∃ v, accountOf n A = .basic ⟨v⟩ := by
    cases h : accountOf n A with
    | basic x => exact ⟨x.value, rfl⟩
    | vesting x => rw [h] at ha; cases ha
    | htlc x => rw [h] at ha; cases ha
  have hf : funds (accountOf n A) = v0.toNat := by rw [hv0]; rfl
  rw [hf] at hle
  obtain ⟨n', c1, ⟨w, hw1, hw2, hw3⟩, _, c4⟩ := repeat_chain (E := E) (tx := .basic t) hab hac hbc hA rfl (by
      show ((0 : UInt8) &&& 0x01 != 0) = false; decide)
    (fun acc k => ∃ w : UInt64, acc = .basic ⟨w⟩ ∧ k * (t.value.toNat + t.fee.toNat) ≤ w.toNat ∧
      w.toNat + (heights.length - k) * (t.value.toNat + t.fee.toNat) = v0.toNat ∧ k ≤ heights.length)
    hash heights h0 (by
      rintro acc k h hh ⟨w, rfl, hk, he, hkl⟩
      have hvw : t.value + t.fee ≤ w := by
        rw [UInt64.le_iff_toNat_le, hamt]
        rw [Nat.add_mul] at hk; omega
      have hsub := UInt64.toNat_sub_of_le _ _ hvw
      rw [hamt] at hsub
      refine ⟨.basic ⟨w - (t.value + t.fee)⟩, basic_out rfl hvw, fun hd => hd.2 rfl, rfl, _, rfl, ?_, ?_, by omega⟩
      · rw [hsub]; rw [Nat.add_mul] at hk; omega
      · rw [hsub]
        have e1 : heights.length - k = (heights.length - (k + 1)) + 1 := by omega
        rw [e1, Nat.add_mul]
        rw [UInt64.le_iff_toNat_le, hamt] at hvw
        omega)
    hn ha.symm ⟨v0, hv0, hle, by rw [Nat.sub_self, Nat.zero_mul, Nat.add_zero], Nat.le_refl _⟩ hb hc
  refine ⟨n', c1, ?_, c4⟩
  rw [hf, hw1]
  show v0.toNat = w.toNat + _
  rw [← hw3.1, Nat.sub_zero]

/-- The hypotheses are met: a payment of 3 with fee 1 out of 100 can be executed 25 times. -/
example (E : Env) (key : BArr 32) (b c : Addr) (hab : publicKeyToAddress E.H key ≠ b)
    (hac : publicKeyToAddress E.H key ≠ c) : ∃ n, ∃ t : BasicTx, Reach E n ∧ t.senderPubKey = key ∧ t.recipient = b ∧
      (accountOf n (publicKeyToAddress E.H t.senderPubKey)).type = 0 ∧ (accountOf n t.recipient).type = 0 ∧
      (accountOf n c).type = 0 ∧ t.value.toNat + t.fee.toNat < 2 ^ 64 ∧
      25 * (t.value.toNat + t.fee.toNat) ≤ funds (accountOf n (publicKeyToAddress E.H t.senderPubKey)) := by
  refine ⟨(Node.putAccount E.H (publicKeyToAddress E.H key) (some (.basic ⟨100⟩)) newNode).2,
    ⟨key, b, 3, 1, 7, 42, BArr.zero 64⟩, .put _ _ .new, rfl, rfl, ?_, ?_, ?_, ?_, ?_⟩
  · simp only []; rw [accountOf_put .new, AMap.set_same]; rfl
  · simp only []; rw [accountOf_put .new, AMap.set_ne _ _ (Ne.symm hab), accountOf_new]; rfl
  · rw [accountOf_put .new, AMap.set_ne _ _ (Ne.symm hac), accountOf_new]; rfl
  · show (3 : UInt64).toNat + (1 : UInt64).toNat < 2 ^ 64; decide
  · simp only []; rw [accountOf_put .new, AMap.set_same]
    show 25 * ((3 : UInt64).toNat + (1 : UInt64).toNat) ≤ (100 : UInt64).toNat; decide

end Nimiq.Accounts
