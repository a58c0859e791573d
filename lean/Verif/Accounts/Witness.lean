import Verif.Accounts.ChainSupply
import Verif.Accounts.Recover
import Verif.Accounts.AnyStore
import Verif.Accounts.Order
/-!
# A concrete block for the theorems about `Push`

One state and one block that exercise every part of `Push`: a transfer, a withdrawal from a vesting contract with a fee, a
refund that empties an HTLC (which is then pruned), and the creation of a vesting contract.  The block is accepted
(`rich_ok`); the hash function stays arbitrary.  Below, every theorem about successful pushes is applied to it, which
shows that its hypotheses can be met by something that is not trivial.
-/
namespace Nimiq.Accounts.Witness
open Beserial Beserial.Spec Wire Spec Float64

/-- The address with 20 times the same byte. -/
def addr (i : UInt8) : Addr := ⟨List.replicate 20 i, rfl⟩

@[simp] theorem addr_inj {i j : UInt8} : addr i = addr j ↔ i = j := by
  constructor
  · intro h
    have := congrArg (fun a : Addr => a.val.head?) h
    simpa [addr] using this
  · rintro rfl; rfl

variable (E : Env)

/-- The owner of the contracts. -/
def owner : Addr := publicKeyToAddress E.H (BArr.zero 32)
/-- The owner's signature proof (signatures are not checked, C62). -/
def proof : Bytes := (BArr.zero 32).val ++ 0 :: (BArr.zero 64).val

def vest : VestingAccount := ⟨100, owner E, 1, 1, 2, 100⟩
def lock : HTLCAccount := ⟨5, owner E, addr 2, ⟨3, BArr.zero 32⟩, 1, 10, 5⟩

/-- Address 1 holds 1000, address 4 a vesting contract, address 5 an HTLC. -/
def node : Node := (Node.putAccount E.H (addr 5) (some (.htlc (lock E))) (Node.putAccount E.H (addr 4)
  (some (.vesting (vest E))) (Node.putAccount E.H (addr 1) (some (.basic ⟨1000⟩)) newNode).2).2).2

def m0 : AMap := ((AMap.set (fun _ => .basic ⟨0⟩) (addr 1) (.basic ⟨1000⟩)).set (addr 4) (.vesting (vest E))).set (addr 5)
  (.htlc (lock E))

theorem node_reach : Reach E (node E) := .put _ _ (.put _ _ (.put _ _ .new))

theorem node_acc : accountOf (node E) = m0 E := by
  unfold node m0
  rw [accountOf_put (.put _ _ (.put _ _ .new)), accountOf_put (.put _ _ .new), accountOf_put .new, accountOf_new]

/-- a transfer of 30 with fee 2 -/
def t1 : Tx := .extended ⟨[], addr 1, 0, addr 2, 0, 30, 2, 1, 1, 0, []⟩
/-- a withdrawal of 20 from the vesting contract with fee 1 -/
def t2 : Tx := .extended ⟨[], addr 4, 1, addr 2, 0, 20, 1, 1, 1, 0, proof⟩
/-- the refund of the HTLC -/
def t3 : Tx := .extended ⟨[], addr 5, 2, addr 2, 0, 5, 0, 1, 1, 0, 3 :: proof⟩
/-- the creation of a vesting contract of 40 at address 6, with fee 3 -/
def t4 : Tx := .extended ⟨(addr 7).val ++ digits 4 (100 : UInt32).toNat ++ digits 4 (10 : UInt32).toNat ++
  digits 8 (4 : UInt64).toNat ++ digits 8 (40 : UInt64).toNat, addr 1, 0, addr 6, 1, 40, 3, 1, 1, 1, []⟩

def body : Body := ⟨addr 3, [t1, t2, t3, t4], [(addr 5, some (.htlc { lock E with value := 0 }))]⟩
def block : Block := ⟨11, BArr.zero 32, some (body E)⟩

theorem vest_unlocked : amountUnlocked E (vest E) 11 = 20 := by
  have := C60_whole_steps E (vest E) 11 10 (by decide) (by show (1 : UInt32) ≠ 0; decide) (by show (2 : UInt64) ≠ 0; decide)
    (by show (11 : UInt32).toNat = (1 : UInt32).toNat + 10 * (1 : UInt32).toNat; decide)
    (by show 10 * (2 : UInt64).toNat < 2 ^ 53; decide)
  exact UInt64.toNat_inj.mp this

theorem proof_owner : ProofOf E.H proof (owner E) := proofOf_key E.H _ _

theorem push_stages {E : Env} {block : Block} {body : Body} (hb : block.body = some body) {m a b c d e : AMap}
    (h1 : pushSenders E mapLedger block.height body m = (.ok (), a))
    (h2 : pushRecipients E mapLedger block.height body a = (.ok (), b))
    (h3 : createContracts E mapLedger block.height body b = (.ok (), c))
    (h4 : pruneAccounts E mapLedger body c = (.ok (), d))
    (h5 : pushInherents mapLedger block.height body d = (.ok (), e)) :
    push E mapLedger block m = (.ok (), e) := by
  unfold push
  rw [hb]
  simp only [M.bind_eq, h1, h2, h3, h4, h5]

theorem rich_push : ∃ m', push E mapLedger (block E) (m0 E) = (.ok (), m') := by
  let m1 := (m0 E).set (addr 1) (.basic ⟨968⟩)
  let m2 := m1.set (addr 4) (.vesting { vest E with value := 80 })
  let m3 := m2.set (addr 5) (.htlc { lock E with value := 0 })
  let m4 := m3.set (addr 1) (.basic ⟨925⟩)
  let r1 := m4.set (addr 2) (.basic ⟨30⟩)
  let r2 := r1.set (addr 2) (.basic ⟨50⟩)
  let r3 := r2.set (addr 2) (.basic ⟨55⟩)
  let r4 := r3.set (addr 6) (.basic ⟨40⟩)
  let c1 := r4.set (addr 6) (.vesting ⟨40, addr 7, 100, 10, 4, 40⟩)
  let p1 := c1.set (addr 5) (.basic ⟨0⟩)
  have h1 : pushSenders E mapLedger 11 (body E) (m0 E) = (.ok (), m4) := by
    rw [pushSenders_eq]
    show forTxs [t1, t2, t3, t4] _ _ = _
    have s1 : senderStep E 11 t1 (m0 E) = (.ok (), m1) := pushTx_of_ok (.inr (by
      show (0 : UInt8) = (m0 E (addr 1)).type; simp [m0, AMap.set, Account.type])) (by
      show applyOutgoing E (m0 E (addr 1)) t1 11 = _
      have : m0 E (addr 1) = .basic ⟨1000⟩ := by simp [m0, AMap.set]
      rw [this]; exact basic_out (d := 32) rfl (by decide))
    have s2 : senderStep E 11 t2 m1 = (.ok (), m2) := pushTx_of_ok (.inr (by
      show (1 : UInt8) = (m1 (addr 4)).type; simp [m1, m0, AMap.set, Account.type])) (by
      show applyOutgoing E (m1 (addr 4)) t2 11 = _
      have : m1 (addr 4) = .vesting (vest E) := by simp [m1, m0, AMap.set]
      rw [this]
      exact (C60_debit_iff ..).mpr ⟨_, rfl, by rw [vest_unlocked]; exact UInt64.le_refl _, proof_owner E, by simp [vest]⟩)
    have s3 : senderStep E 11 t3 m2 = (.ok (), m3) := pushTx_of_ok (.inr (by
      show (2 : UInt8) = (m2 (addr 5)).type; simp [m2, m1, m0, AMap.set, Account.type])) (by
      show applyOutgoing E (m2 (addr 5)) t3 11 = _
      have : m2 (addr 5) = .htlc (lock E) := by simp [m2, m1, m0, AMap.set]
      rw [this]
      exact (C61_debit_iff ..).mpr ⟨_, rfl, UInt64.le_refl _, .timeout _ (by show (10 : UInt32) < 11; decide) (proof_owner E),
        by simp [lock]⟩)
    have s4 : senderStep E 11 t4 m3 = (.ok (), m4) := pushTx_of_ok (.inr (by
      show (0 : UInt8) = (m3 (addr 1)).type; simp [m3, m2, m1, m0, AMap.set, Account.type])) (by
      show applyOutgoing E (m3 (addr 1)) t4 11 = _
      have : m3 (addr 1) = .basic ⟨968⟩ := by simp [m3, m2, m1, m0, AMap.set]
      rw [this]; exact basic_out (d := 43) rfl (by decide))
    rw [forTxs_cons, s1]; simp only []
    rw [forTxs_cons, s2]; simp only []
    rw [forTxs_cons, s3]; simp only []
    rw [forTxs_cons, s4]; simp only []
    rfl
  have h2 : pushRecipients E mapLedger 11 (body E) m4 = (.ok (), r4) := by
    rw [pushRecipients_eq]
    show forTxs [t1, t2, t3, t4] _ _ = _
    have s1 : recipientStep E 11 t1 m4 = (.ok (), r1) := pushTx_of_ok (.inr (by
      show (if (0 : UInt8) &&& 1 = 0 then (0 : UInt8) else 255) = (m4 (addr 2)).type; rw [if_pos (by decide)]; simp [m4, m3, m2, m1, m0, AMap.set, Account.type])) (by
      show applyIncoming (m4 (addr 2)) t1 11 = _
      have : m4 (addr 2) = .basic ⟨0⟩ := by simp [m4, m3, m2, m1, m0, AMap.set]
      rw [this]; rfl)
    have s2 : recipientStep E 11 t2 r1 = (.ok (), r2) := pushTx_of_ok (.inr (by
      show (if (0 : UInt8) &&& 1 = 0 then (0 : UInt8) else 255) = (r1 (addr 2)).type; rw [if_pos (by decide)]; simp [r1, AMap.set, Account.type])) (by
      show applyIncoming (r1 (addr 2)) t2 11 = _
      have : r1 (addr 2) = .basic ⟨30⟩ := by simp [r1, AMap.set]
      rw [this]; rfl)
    have s3 : recipientStep E 11 t3 r2 = (.ok (), r3) := pushTx_of_ok (.inr (by
      show (if (0 : UInt8) &&& 1 = 0 then (0 : UInt8) else 255) = (r2 (addr 2)).type; rw [if_pos (by decide)]; simp [r2, AMap.set, Account.type])) (by
      show applyIncoming (r2 (addr 2)) t3 11 = _
      have : r2 (addr 2) = .basic ⟨50⟩ := by simp [r2, AMap.set]
      rw [this]; rfl)
    have s4 : recipientStep E 11 t4 r3 = (.ok (), r4) := pushTx_of_ok (.inl (by
      show (if (1 : UInt8) &&& 1 = 0 then (1 : UInt8) else 255) = 255; rw [if_neg (by decide)])) (by
      show applyIncoming (r3 (addr 6)) t4 11 = _
      have : r3 (addr 6) = .basic ⟨0⟩ := by simp [r3, r2, r1, m4, m3, m2, m1, m0, AMap.set]
      rw [this]; rfl)
    rw [forTxs_cons, s1]; simp only []
    rw [forTxs_cons, s2]; simp only []
    rw [forTxs_cons, s3]; simp only []
    rw [forTxs_cons, s4]; simp only []
    rfl
  have h3 : createContracts E mapLedger 11 (body E) r4 = (.ok (), c1) := by
    rw [createContracts_eq]
    show forTxs [t1, t2, t3, t4] _ _ = _
    have sn : ∀ tx m, creates tx = false → createStep E 11 tx m = (.ok (), m) := by
      intro tx m h; rw [createStep_map, if_neg (by rw [h]; decide)]
    have c4 : creates t4 = true := rfl
    have s4 : createStep E 11 t4 r4 = (.ok (), c1) := by
      rw [createStep_map, if_pos c4]
      show (match contractOf t4 11 (balance (r4 (addr 6))) with
        | .ok x => (Out.ok (), AMap.set r4 (addr 6) x) | .err e => (.err e, r4) | .panic => (.panic, r4)) = _
      have e : contractOf t4 11 (balance (r4 (addr 6))) = .ok (.vesting ⟨40, addr 7, 100, 10, 4, 40⟩) := by
        have hb : balance (r4 (addr 6)) = 40 := by simp [r4, AMap.set, balance]
        rw [hb]
        exact (contractOf_iff c4).mpr ⟨_, rfl, rfl, .long (addr 7) 100 10 4 40⟩
      rw [e]
    rw [forTxs_cons, sn t1 _ rfl]; simp only []
    rw [forTxs_cons, sn t2 _ rfl]; simp only []
    rw [forTxs_cons, sn t3 _ rfl]; simp only []
    rw [forTxs_cons, s4]; simp only []
    rfl
  have h4 : pruneAccounts E mapLedger (body E) c1 = (.ok (), p1) := by
    have q1 : ¬ Dead (c1 (addr 1)) := by
      simp [c1, r4, r3, r2, r1, m4, AMap.set, Dead, balance, Account.type]
    have q2 : ¬ Dead (c1 (addr 4)) := by
      simp [c1, r4, r3, r2, r1, m4, m3, m2, AMap.set, Dead, balance, Account.type]
    have v5 : c1 (addr 5) = .htlc { lock E with value := 0 } := by simp [c1, r4, r3, r2, r1, m4, m3, AMap.set]
    have q3 : Dead (c1 (addr 5)) := by rw [v5]; exact ⟨rfl, by show (2 : UInt8) ≠ 0; decide⟩
    have q4 : ¬ Dead (p1 (addr 1)) := by
      simp [p1, c1, r4, r3, r2, r1, m4, AMap.set, Dead, balance, Account.type]
    have hl : pruneLoop E mapLedger [t1, t2, t3, t4] (pruneMap (body E).pruned) c1 = (.ok [], p1) := by
      rw [pruneLoop_cons, show (t1.getSender E.H).1 = addr 1 from rfl, if_pos q1]
      rw [pruneLoop_cons, show (t2.getSender E.H).1 = addr 4 from rfl, if_pos q2]
      rw [pruneLoop_cons, show (t3.getSender E.H).1 = addr 5 from rfl, if_neg (not_not.mpr q3)]
      have hg : (pruneMap (body E).pruned).get (addr 5) = some (some (.htlc { lock E with value := 0 })) := by
        simp [pruneMap, body, PruneMap.put, PruneMap.get, PruneMap.del]
      have hd : (pruneMap (body E).pruned).del (addr 5) = [] := by
        simp [pruneMap, body, PruneMap.put, PruneMap.del]
      rw [hg]
      simp only []
      rw [if_pos (by rw [v5]), hd, pruneLoop_cons, show (t4.getSender E.H).1 = addr 1 from rfl]
      exact (if_pos q4).trans rfl
    unfold pruneAccounts
    rw [M.bind_eq, show (body E).txs = [t1, t2, t3, t4] from rfl, hl]
    rfl
  have h5 : pushInherents mapLedger 11 (body E) p1 = (.ok (), p1.set (addr 3) (.basic ⟨rewardAt 11 + 6⟩)) := by
    have v : p1 (addr 3) = .basic ⟨0⟩ := by simp [p1, c1, r4, r3, r2, r1, m4, m3, m2, m1, m0, AMap.set]
    rw [inherents_map, if_neg (by decide), show (body E).minerAddr = addr 3 from rfl, v, if_pos (show (Account.basic ⟨0⟩).type = 0 from rfl)]
    have : (0 : UInt64) + (rewardAt 11 + ((body E).txs.map fun tx => tx.amount.2).sum) = rewardAt 11 + 6 := by
      rw [show ((body E).txs.map fun tx => tx.amount.2).sum = 6 from rfl, UInt64.zero_add]
    show (Out.ok (), AMap.set p1 (addr 3) (.basic ⟨(0 : UInt64) + (rewardAt 11 + ((body E).txs.map fun tx => tx.amount.2).sum)⟩)) = _
    rw [this]
  refine ⟨p1.set (addr 3) (.basic ⟨rewardAt 11 + 6⟩), ?_⟩
  exact push_stages rfl h1 h2 h3 h4 h5

/-- The state after the block. -/
def after : Node := (Push E (block E) (node E)).2

/-- The block is accepted. -/
theorem rich_ok : Push E (block E) (node E) = (.ok (), after E) := by
  obtain ⟨m', hm⟩ := rich_push E
  have q := ((node_reach E).push_eq (block E)).1
  rw [node_acc, hm] at q
  have q' : (Push E (block E) (node E)).1 = .ok () := q
  unfold after
  rw [← q']

theorem total_zero : total (fun _ => Account.basic ⟨0⟩) = 0 := Finset.sum_eq_zero fun _ _ => rfl

theorem m0_total : total (m0 E) = 1105 := by
  have h1 := total_set (fun _ => Account.basic ⟨0⟩) (addr 1) (.basic ⟨1000⟩)
  have h2 := total_set (AMap.set (fun _ => Account.basic ⟨0⟩) (addr 1) (.basic ⟨1000⟩)) (addr 4) (.vesting (vest E))
  have h3 := total_set ((AMap.set (fun _ => Account.basic ⟨0⟩) (addr 1) (.basic ⟨1000⟩)).set (addr 4) (.vesting (vest E)))
    (addr 5) (.htlc (lock E))
  simp [total_zero, balance, AMap.set, vest, lock] at h1 h2 h3
  show total (((AMap.set (fun _ => Account.basic ⟨0⟩) (addr 1) (.basic ⟨1000⟩)).set (addr 4) (.vesting (vest E))).set (addr 5)
    (.htlc (lock E))) = 1105
  simp [AMap.set, vest, lock] at *
  omega

theorem reward_lt (h : UInt32) (h0 : h ≠ 0) : (rewardAt h).toNat ≤ 2100000000000000 := by
  have := supply_step (block := ⟨h, BArr.zero 32, none⟩) (h := h.toNat - 1) (by
    have : h.toNat ≠ 0 := fun e => h0 (UInt32.toNat_inj.mp e)
    show h.toNat = _
    omega)
  have h2 := Policy.spec_supply_le_cap (h.toNat - 1 + 1)
  have h3 : (rewardAt h).toNat ≤ Policy.Spec.cap := by
    have : (rewardAt h).toNat ≤ Policy.Spec.supply (h.toNat - 1 + 1) := by rw [← this]; exact Nat.le_add_left ..
    omega
  exact h3

theorem acc1 : accountOf (node E) (addr 1) = .basic ⟨1000⟩ := by rw [node_acc]; simp [m0, AMap.set]
theorem acc4 : accountOf (node E) (addr 4) = .vesting (vest E) := by rw [node_acc]; simp [m0, AMap.set]
theorem acc5 : accountOf (node E) (addr 5) = .htlc (lock E) := by rw [node_acc]; simp [m0, AMap.set]
theorem acc_other (i : UInt8) (h1 : i ≠ 1) (h4 : i ≠ 4) (h5 : i ≠ 5) : accountOf (node E) (addr i) = .basic ⟨0⟩ := by
  rw [node_acc]; simp [m0, AMap.set, h1, h4, h5]

/-! ### C55 -/

example : total (accountOf (after E)) = 1105 + (rewardAt 11).toNat + 1 := by
  obtain ⟨c, hr⟩ := rewardAt_node (node_reach E) (h := 11) (by decide)
  have hf : contractFees E.H (accountOf (node E)) (body E).txs = 1 := by
    show ((if (accountOf (node E) (addr 1)).type = 0 then 0 else 2) + ((if (accountOf (node E) (addr 4)).type = 0 then 0 else 1) +
      ((if (accountOf (node E) (addr 5)).type = 0 then 0 else 0) +
        ((if (accountOf (node E) (addr 1)).type = 0 then 0 else 3) + 0)))) = 1
    rw [acc1, acc4, acc5]; rfl
  have := C55_contract_fees_partial (node_reach E) (block E) (body E) rfl (rich_ok E) (by
      intro tx ht _
      rcases List.mem_cons.mp ht with rfl | ht
      · decide
      rcases List.mem_cons.mp ht with rfl | ht
      · decide
      rcases List.mem_cons.mp ht with rfl | ht
      · decide
      rcases List.mem_cons.mp ht with rfl | ht
      · decide
      cases ht) (by
      intro a ha
      by_cases h4 : a = addr 4
      · subst h4
        rw [acc4]
        show (List.map value (List.filter _ [t1, t2, t3, t4])).sum ≤ (100 : UInt64).toNat
        have e1 : (t1.getSender E.H).1 = addr 1 := rfl
        have e2 : (t2.getSender E.H).1 = addr 4 := rfl
        have e3 : (t3.getSender E.H).1 = addr 5 := rfl
        have e4 : (t4.getSender E.H).1 = addr 1 := rfl
        simp [e1, e2, e3, e4]
        decide
      · exfalso
        rw [node_acc] at ha
        simp only [m0, AMap.set, h4] at ha
        split at ha
        · cases ha
        · split at ha
          · rename_i h; exact h
          · split at ha <;> cases ha) _ c hr (by
      rw [node_acc, m0_total]; rw [← node_acc, hf]
      have := reward_lt 11 (by decide)
      omega)
  rw [this, hf, node_acc, m0_total]

example : ∃ bd r c, (block E).body = some bd ∧ Policy.blockReward (node E).cache 11 = .ok (r, c) ∧
    total (accountOf (after E)) % 2 ^ 64 =
      (total (accountOf (node E)) + r.toNat + contractFees E.H (accountOf (node E)) bd.txs) % 2 ^ 64 :=
  C55_modulo_partial (node_reach E) (block E) (rich_ok E)

/-! ### C57, C58, C59 -/

example : sentWithFees E.H (body E).txs (addr 1) ≤ 1000 := by
  have := C57_basic_partial (node_reach E) (block E) (body E) rfl (rich_ok E) (addr 1) (by rw [acc1]; rfl) (by
    intro tx ht _
    rcases List.mem_cons.mp ht with rfl | ht
    · decide
    rcases List.mem_cons.mp ht with rfl | ht
    · decide
    rcases List.mem_cons.mp ht with rfl | ht
    · decide
    rcases List.mem_cons.mp ht with rfl | ht
    · decide
    cases ht)
  rwa [acc1] at this

example : sentValue E.H (body E).txs (addr 5) ≤ 5 := by
  have := C57_htlc (node_reach E) (block E) (body E) rfl (rich_ok E) (addr 5) (by rw [acc5]; rfl)
  rwa [acc5] at this

example : (Node.getAccount (addr 9) (after E)).1 = (Node.getAccount (addr 9) (node E)).1 := by
  refine C58_frame (node_reach E) (block E) (addr 9) fun bd hb => ?_
  cases hb
  refine ⟨fun h => absurd (addr_inj.mp h) (by decide), fun tx ht => ?_⟩
  rcases List.mem_cons.mp ht with rfl | ht
  · exact ⟨fun h => absurd (addr_inj.mp h) (by decide), fun h => absurd (addr_inj.mp h) (by decide)⟩
  rcases List.mem_cons.mp ht with rfl | ht
  · exact ⟨fun h => absurd (addr_inj.mp h) (by decide), fun h => absurd (addr_inj.mp h) (by decide)⟩
  rcases List.mem_cons.mp ht with rfl | ht
  · exact ⟨fun h => absurd (addr_inj.mp h) (by decide), fun h => absurd (addr_inj.mp h) (by decide)⟩
  rcases List.mem_cons.mp ht with rfl | ht
  · exact ⟨fun h => absurd (addr_inj.mp h) (by decide), fun h => absurd (addr_inj.mp h) (by decide)⟩
  cases ht

theorem listed5 : listed (body E).pruned (addr 5) = some (some (.htlc { lock E with value := 0 })) := by
  simp [listed, body]

example : accountOf (after E) (addr 5) = .basic ⟨0⟩ :=
  (C59_listed (node_reach E) (block E) (body E) rfl (rich_ok E) (addr 5) (by rw [listed5]; simp)).2.2.2
    (fun h => absurd (addr_inj.mp h) (by decide))

example := C59_contract (node_reach E) (block E) (body E) rfl (rich_ok E) (addr 4) (by rw [acc4]; show (1 : UInt8) ≠ 0; decide)

example := C59_list_unique (node_reach E) 11 (BArr.zero 32) (addr 3) [t1, t2, t3, t4] (body E).pruned [] (rich_ok E)

/-! ### C60, C61, C63, C65 -/

example : ∃ t, t2 = .extended t ∧ ProofOf E.H t.proof (owner E) ∧ ((11 : UInt32) ≤ 1 → t.value = 0) ∧
    ((1 : UInt32) ≠ 0 → (2 : UInt64) ≠ 0 → t.value ≤ amountUnlocked E (vest E) 11) :=
  C60_block (node_reach E) (block E) (body E) rfl (rich_ok E) t2 (by simp [body]) (vest E) (acc4 E)

example : amountUnlocked E (vest E) 1 = 0 := C60_locked_before_start E (vest E) 1 (UInt32.le_refl _)

example : amountUnlocked E (vest E) 5 ≤ amountUnlocked E (vest E) 11 :=
  C60_monotone E (vest E) 5 11 (by decide) (.inl (by
    show ((11 : UInt32).toNat - (1 : UInt32).toNat) * (2 : UInt64).toNat < 2 ^ 63 * (1 : UInt32).toNat; decide))

example := C60_amount E (vest E) 11 (by show (1 : UInt32) < 11; decide) (by show (1 : UInt32) ≠ 0; decide)
  (by show (2 : UInt64) ≠ 0; decide)
  (by show ((11 : UInt32).toNat - (1 : UInt32).toNat) * (2 : UInt64).toNat < 2 ^ 63 * (1 : UInt32).toNat; decide)

example : sentValue E.H (body E).txs (addr 5) ≤ 5 :=
  (C61_block (node_reach E) (block E) (body E) rfl (rich_ok E) (addr 5) (lock E) (acc5 E)).2

theorem t4_flags : (t4.content E.H).flags &&& 0x01 ≠ 0 := by show (1 : UInt8) &&& 1 ≠ 0; decide

example : ∃ t x, t4 = .extended t ∧ NewContract t 0 x :=
  (C63_accepted (node_reach E) (block E) (body E) rfl (rich_ok E) t4 (by simp [body]) (t4_flags E)).2

example := C63_created (node_reach E) (block E) (body E) rfl (rich_ok E) (addr 6) ⟨t4, by simp [body], rfl, t4_flags E⟩ (by
  intro tx ht h
  rcases List.mem_cons.mp ht with rfl | ht
  · exact absurd (addr_inj.mp h) (by decide)
  rcases List.mem_cons.mp ht with rfl | ht
  · exact absurd (addr_inj.mp h) (by decide)
  rcases List.mem_cons.mp ht with rfl | ht
  · exact absurd (addr_inj.mp h) (by decide)
  rcases List.mem_cons.mp ht with rfl | ht
  · exact absurd (addr_inj.mp h) (by decide)
  cases ht)

example := C65_declared_type_partial (node_reach E) (block E) (body E) rfl (rich_ok E) t2 (by simp [body])
  (by show (1 : UInt8) ≠ 255; decide)

example := C65_recipient_type_partial (node_reach E) (block E) (body E) rfl (rich_ok E) t2 (by simp [body])
  (by show (0 : UInt8) &&& 1 = 0; decide)

example := C65_bypass_violated (node_reach E) (addr 1) (addr 2) (addr 3) 1000 11 (by decide) (acc1 E)
  (acc_other E 2 (by decide) (by decide) (by decide)) (acc_other E 3 (by decide) (by decide) (by decide))
  (fun h => absurd (addr_inj.mp h) (by decide)) (fun h => absurd (addr_inj.mp h) (by decide))
  (fun h => absurd (addr_inj.mp h) (by decide)) (BArr.zero 32) []

/-! ### C67: two histories with the same accounts (the accounts put in another order) -/

def node' : Node := (Node.putAccount E.H (addr 1) (some (.basic ⟨1000⟩)) (Node.putAccount E.H (addr 5) (some (.htlc (lock E)))
  (Node.putAccount E.H (addr 4) (some (.vesting (vest E))) newNode).2).2).2

example : (Node.hash E.H (Push E (block E) (node E)).2).1 = (Node.hash E.H (Push E (block E) (node' E)).2).1 := by
  have r' : Reach E (node' E) := .put _ _ (.put _ _ (.put _ _ .new))
  refine (C67_deterministic (node_reach E) r' (fun a => ?_) (block E)).2.2
  have e : accountOf (node' E) = accountOf (node E) := by
    rw [node_acc]
    unfold node' m0
    rw [accountOf_put (.put _ _ (.put _ _ .new)), accountOf_put (.put _ _ .new), accountOf_put .new, accountOf_new]
    funext b
    simp only [AMap.set]
    by_cases h1 : b = addr 1
    · subst h1; simp
    · simp [h1]
  obtain ⟨x, hx⟩ := (C54_read_your_writes (node_reach E) a a none).1
  obtain ⟨y, hy⟩ := (C54_read_your_writes r' a a none).1
  have e1 : accountOf (node E) a = x := by unfold accountOf; rw [hx]
  have e2 : accountOf (node' E) a = y := by unfold accountOf; rw [hy]
  rw [hx, hy, ← e1, ← e2, e]

/-! ### Plain payments: C55 (conservation), C66, C76 -/

/-- another transfer, of 40 with fee 3, to address 8 -/
def t5 : Tx := .extended ⟨[], addr 1, 0, addr 8, 0, 40, 3, 1, 1, 0, []⟩
def plain : Block := ⟨11, BArr.zero 32, some ⟨addr 3, [t1, t5], []⟩⟩
def plain' : Block := ⟨11, BArr.zero 32, some ⟨addr 3, [t5, t1], []⟩⟩

theorem two {P : Tx → Prop} (h1 : P t1) (h5 : P t5) : ∀ tx ∈ [t1, t5], P tx := by
  intro tx ht
  rcases List.mem_cons.mp ht with rfl | ht
  · exact h1
  rcases List.mem_cons.mp ht with rfl | ht
  · exact h5
  cases ht

theorem two_wrap : ∀ tx ∈ [t1, t5], value tx + fee tx < 2 ^ 64 := two (by decide) (by decide)

theorem two_basic : ∀ tx ∈ [t1, t5], (accountOf (node E) (tx.getSender E.H).1).type = 0 :=
  two (by show (accountOf (node E) (addr 1)).type = 0; rw [acc1]; rfl)
    (by show (accountOf (node E) (addr 1)).type = 0; rw [acc1]; rfl)

theorem two_plain : ∀ tx ∈ [t1, t5], (tx.content E.H).flags &&& 0x01 = 0 :=
  two (by show (0 : UInt8) &&& 1 = 0; decide) (by show (0 : UInt8) &&& 1 = 0; decide)

/-- By C76 the block of plain payments is accepted. -/
theorem plain_ok : (Push E (plain) (node E)).1 = .ok () := by
  refine (C76_accepted_iff (node_reach E) plain _ rfl (by show (11 : UInt32) ≠ 0; decide) rfl
    (by show (accountOf (node E) (addr 3)).type = 0; rw [acc_other E 3 (by decide) (by decide) (by decide)]; rfl)
    (fun tx ht => ⟨two_basic E tx ht, two (P := fun tx => (tx.getSender E.H).2 = 0) rfl rfl tx ht⟩)
    (two ⟨by show (accountOf (node E) (addr 2)).type = 0; rw [acc_other E 2 (by decide) (by decide) (by decide)]; rfl, rfl,
        by show (0 : UInt8) &&& 1 = 0; decide⟩
      ⟨by show (accountOf (node E) (addr 8)).type = 0; rw [acc_other E 8 (by decide) (by decide) (by decide)]; rfl, rfl,
        by show (0 : UInt8) &&& 1 = 0; decide⟩) two_wrap).mpr fun a => ?_
  show (List.map (fun tx => value tx + fee tx) (List.filter (fun tx => decide ((tx.getSender E.H).1 = a)) [t1, t5])).sum ≤ _
  have e1 : (t1.getSender E.H).1 = addr 1 := rfl
  have e5 : (t5.getSender E.H).1 = addr 1 := rfl
  by_cases h : addr 1 = a
  · subst h
    rw [acc1]
    simp [e1, e5]
    decide
  · simp [e1, e5, h]

theorem plain_push : Push E plain (node E) = (.ok (), (Push E plain (node E)).2) := by
  rw [← plain_ok E]

example : total (accountOf (Push E plain (node E)).2) = 1105 + (rewardAt 11).toNat := by
  obtain ⟨c, hr⟩ := rewardAt_node (node_reach E) (h := 11) (by decide)
  have := C55_conservation_partial (node_reach E) plain _ rfl (plain_push E) (two_basic E) two_wrap _ c hr (by
    rw [node_acc, m0_total]
    have := reward_lt 11 (by decide)
    omega)
  rw [this, node_acc, m0_total]

example : funds (accountOf (Push E plain (node E)).2 (addr 1)) + 75 = 1000 := by
  obtain ⟨c, hr⟩ := rewardAt_node (node_reach E) (h := 11) (by decide)
  have := (C76_balances (node_reach E) plain _ rfl (plain_push E) (two_basic E) (two_plain E) two_wrap _ c hr (by
    rw [node_acc, m0_total]
    have := reward_lt 11 (by decide)
    omega) (addr 1)).2.2
  have e1 : (t1.getSender E.H).1 = addr 1 := rfl
  have e5 : (t5.getSender E.H).1 = addr 1 := rfl
  have f1 : t1.getRecipient.1 = addr 2 := rfl
  have f5 : t5.getRecipient.1 = addr 8 := rfl
  have v1 : value t1 = 30 := by decide
  have w1 : fee t1 = 2 := by decide
  have v5 : value t5 = 40 := by decide
  have w5 : fee t5 = 3 := by decide
  rw [acc1] at this
  simpa [sentWithFees, receivedValue, e1, e5, f1, f5, v1, w1, v5, w5, funds] using this

example : (Push E plain' (node E)).1 = .ok () ∧
    (Node.hash E.H (Push E plain (node E)).2).1 = (Node.hash E.H (Push E plain' (node E)).2).1 := by
  have := C66_order_irrelevant (node_reach E) plain plain' _ _ rfl rfl rfl rfl rfl (.swap t5 t1 []) (two_basic E) (two_plain E)
  exact ⟨this.1.mp (plain_ok E), (this.2 (plain_ok E)).2⟩

/-! ### C122: the rich block backwards -/

example : (Push E ⟨11, BArr.zero 32, some ⟨addr 3, [t4, t3, t2, t1], (body E).pruned⟩⟩ (node E)).1 = .ok () ∧
    (Node.hash E.H (Push E (block E) (node E)).2).1 =
      (Node.hash E.H (Push E ⟨11, BArr.zero 32, some ⟨addr 3, [t4, t3, t2, t1], (body E).pruned⟩⟩ (node E)).2).1 := by
  have hp : [t1, t2, t3, t4].Perm [t4, t3, t2, t1] := (List.reverse_perm [t1, t2, t3, t4]).symm
  have hone : ∀ a, (creationsAt E.H a [t1, t2, t3, t4]).length ≤ 1 := by
    intro a
    have h1 : (t1.content E.H).flags &&& 0x01 = 0 := by show (0 : UInt8) &&& 0x01 = 0; decide
    have h2 : (t2.content E.H).flags &&& 0x01 = 0 := by show (0 : UInt8) &&& 0x01 = 0; decide
    have h3 : (t3.content E.H).flags &&& 0x01 = 0 := by show (0 : UInt8) &&& 0x01 = 0; decide
    have : creationsAt E.H a [t1, t2, t3, t4] = creationsAt E.H a [t4] := by
      simp [creationsAt, List.filter_cons, h1, h2, h3]
    rw [this]
    exact (List.length_filter_le _ _)
  have := C122_order_free (node_reach E) 11 (BArr.zero 32) (BArr.zero 32) (addr 3) (body E).pruned _ _ hp hone
  have hok : (Push E (block E) (node E)).1 = .ok () := by rw [rich_ok]
  exact ⟨this.1.mp hok, (this.2 hok).2⟩

/-! ### C63 (lengths), C87, C88 -/

example : NewContract ⟨(addr 7).val ++ digits 4 (100 : UInt32).toNat ++ digits 4 (10 : UInt32).toNat ++
    digits 8 (4 : UInt64).toNat ++ digits 8 (40 : UInt64).toNat, addr 1, 0, addr 6, 1, 40, 3, 1, 1, 1, []⟩ 40
    (.vesting ⟨40, addr 7, 100, 10, 4, 40⟩) := ⟨rfl, .long (addr 7) 100 10 4 40⟩

example : CanPay E (node E) (addr 5) (addr 2) 5 11 (3 :: proof) :=
  C87_htlc_refund (node_reach E) (addr 5) (addr 2) (lock E) (acc5 E) (fun h => absurd (addr_inj.mp h) (by decide))
    (by rw [acc_other E 2 (by decide) (by decide) (by decide)]; rfl) 5 (UInt64.le_refl _) 11 (by show (10 : UInt32) < 11; decide)
    (BArr.zero 32) (BArr.zero 64) rfl

end Nimiq.Accounts.Witness
