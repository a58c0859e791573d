import Verif.Accounts.Single
import Verif.Policy.Exact
/-!
# C77: the money in existence along a chain, with contracts
-/
namespace Nimiq.Accounts.Spec
open Wire

/-- The fees of the transactions of a block whose declared sender type is not "basic". -/
def declaredContractFees (H : Bytes → Hash32) (b : Block) : Nat :=
  match b.body with
  | none => 0
  | some body => (body.txs.map fun tx => if (tx.getSender H).2 = 0 then 0 else fee tx).sum

/-- The same for a list of blocks. -/
def chainContractFees (H : Bytes → Hash32) (blocks : List Block) : Nat := (blocks.map (declaredContractFees H)).sum

end Nimiq.Accounts.Spec

namespace Nimiq.Accounts
open Beserial Wire Spec

variable {E : Env} {n n' : Node}

/-- The declared type of a sender in a pushed block is the true one, unless it is 0xFF. -/
theorem declared_type {block : Block} {body : Body} {m m' : AMap} (h : push E mapLedger block m = (.ok (), m'))
    (hb : block.body = some body) {tx : Tx} (ht : tx ∈ body.txs) (hff : (tx.getSender E.H).2 ≠ 0xFF) :
    (m (tx.getSender E.H).1).type = (tx.getSender E.H).2 := by
  obtain ⟨body', hb', _, s1, _⟩ := push_iff.mp h
  rw [hb] at hb'; cases hb'
  obtain ⟨pre, post, he⟩ := List.append_of_mem ht
  have h1 := (s1 pre tx post he).1
  rw [type_afterSenders] at h1
  exact (h1.resolve_left hff).symm

theorem contractFees_declared {block : Block} {body : Body} {m m' : AMap} (h : push E mapLedger block m = (.ok (), m'))
    (hb : block.body = some body) (hff : ∀ tx ∈ body.txs, (tx.getSender E.H).2 ≠ 0xFF) :
    contractFees E.H m body.txs = declaredContractFees E.H block := by
  unfold contractFees declaredContractFees
  rw [hb]
  simp only []
  congr 1
  apply List.map_congr_left
  intro tx ht
  rw [declared_type h hb ht (hff tx ht)]

theorem supply_step {block : Block} {h : Nat} (hb : block.height.toNat = h + 1) :
    Policy.Spec.supply h + (rewardAt block.height).toNat = Policy.Spec.supply (h + 1) := by
  have hne : block.height ≠ 0 := by
    intro hz; rw [hz] at hb; simp at hb
  have hs := rewardAt_supply hne
  have hpred : (block.height - 1).toNat = h := by
    have hlt := block.height.toNat_lt
    rw [UInt32.toNat_sub_of_le _ _ (by rw [UInt32.le_iff_toNat_le]; simp; omega)]
    simp; omega
  rwa [hpred, hb] at hs

/-- C77 (partial: modulo `2^64`). For every chain of blocks of consecutive heights, with whatever senders and whatever
overflows: the money in existence is what the schedule prescribes plus the fees of the transactions whose declared sender type
is not basic - modulo `2^64`, and if no sender type is declared as 0xFF (C65). -/
theorem C77_modulo_partial (hn : Reach E n) {blocks : List Block} (hc : Chain E n blocks n') (h : Nat)
    (hh : Consecutive h blocks)
    (hff : ∀ b ∈ blocks, ∀ body, b.body = some body → ∀ tx ∈ body.txs, (tx.getSender E.H).2 ≠ 0xFF)
    (h0 : total (accountOf n) % 2 ^ 64 = Policy.Spec.supply h % 2 ^ 64) :
    total (accountOf n') % 2 ^ 64 =
      (Policy.Spec.supply (h + blocks.length) + chainContractFees E.H blocks) % 2 ^ 64 := by
  have key : ∀ (extra : Nat), total (accountOf n) % 2 ^ 64 = (Policy.Spec.supply h + extra) % 2 ^ 64 →
      total (accountOf n') % 2 ^ 64 =
        (Policy.Spec.supply (h + blocks.length) + (extra + chainContractFees E.H blocks)) % 2 ^ 64 := by
    clear h0
    induction hc generalizing h with
    | nil => intro extra h0; simpa [chainContractFees] using h0
    | cons hp _ ih =>
      rename_i n n1 n2 block blocks _
      intro extra h0
      obtain ⟨hb1, hb2⟩ := hh
      have hm := push_map hn hp
      obtain ⟨body, hbody, ht⟩ := push_total_mod hm
      rw [contractFees_declared hm hbody (hff block (List.mem_cons_self ..) body hbody)] at ht
      have hs := supply_step hb1
      have hn1 : Reach E n1 := by have := Reach.push block hn; rwa [hp] at this
      have i := ih hn1 (h + 1) hb2 (fun b hb => hff b (List.mem_cons_of_mem _ hb))
        (extra + declaredContractFees E.H block) (by
          rw [ht, ← hs]
          omega)
      rw [i, List.length_cons]
      have e1 : h + 1 + blocks.length = h + (blocks.length + 1) := by omega
      have e2 : chainContractFees E.H (block :: blocks) = declaredContractFees E.H block + chainContractFees E.H blocks := by
        simp [chainContractFees]
      rw [e1, e2]
      congr 1; omega
  have := key 0 (by simpa using h0)
  simpa using this

/-- C77 (partial: no vesting account sends, and value plus fee of basic senders never wraps around). The money in existence is
exactly what the schedule prescribes plus the fees of the transactions sent by hash time-locked contracts (which the miner
gets and nobody pays), as long as this fits into 64 bits. -/
theorem C77_with_htlc_partial (hn : Reach E n) {blocks : List Block} (hc : Chain E n blocks n') (h : Nat)
    (hh : Consecutive h blocks) (h0 : total (accountOf n) = Policy.Spec.supply h)
    (hsend : ∀ b ∈ blocks, ∀ body, b.body = some body → ∀ tx ∈ body.txs,
      (tx.getSender E.H).2 = 0 ∧ value tx + fee tx < 2 ^ 64 ∨ (tx.getSender E.H).2 = 2)
    (hlt : Policy.Spec.supply (h + blocks.length) + chainContractFees E.H blocks < 2 ^ 64) :
    total (accountOf n') = Policy.Spec.supply (h + blocks.length) + chainContractFees E.H blocks := by
  have key : ∀ (extra : Nat), total (accountOf n) = Policy.Spec.supply h + extra →
      Policy.Spec.supply (h + blocks.length) + (extra + chainContractFees E.H blocks) < 2 ^ 64 →
      total (accountOf n') = Policy.Spec.supply (h + blocks.length) + (extra + chainContractFees E.H blocks) := by
    clear h0 hlt
    induction hc generalizing h with
    | nil => intro extra h0 _; simpa [chainContractFees] using h0
    | cons hp _ ih =>
      rename_i n n1 n2 block blocks _
      intro extra h0 hlt
      obtain ⟨hb1, hb2⟩ := hh
      have hm := push_map hn hp
      obtain ⟨body, hbody, _⟩ := push_iff.mp hm
      have hs0 := hsend block (List.mem_cons_self ..) body hbody
      have hff : ∀ tx ∈ body.txs, (tx.getSender E.H).2 ≠ 0xFF := by
        intro tx ht hx
        rcases hs0 tx ht with ⟨h1, _⟩ | h1 <;> rw [hx] at h1 <;> exact absurd h1 (by decide)
      have hty := fun tx ht => declared_type hm hbody (tx := tx) ht (hff tx ht)
      have hcf := contractFees_declared hm hbody hff
      have hs := supply_step hb1
      have e1 : h + 1 + blocks.length = h + (blocks.length + 1) := by omega
      have e2 : chainContractFees E.H (block :: blocks) = declaredContractFees E.H block + chainContractFees E.H blocks := by
        simp [chainContractFees]
      have hmono : Policy.Spec.supply (h + 1) ≤ Policy.Spec.supply (h + (blocks.length + 1)) :=
        Policy.spec_supply_mono (by omega)
      rw [e2, List.length_cons] at hlt
      have ht := push_total hm body hbody (by
        intro tx ht h0
        rcases hs0 tx ht with ⟨_, h1⟩ | h1
        · exact h1
        · rw [hty tx ht, h1] at h0; exact absurd h0 (by decide)) (by
        intro a ha
        have : sentValue E.H body.txs a = 0 := by
          unfold sentValue
          rw [List.filter_eq_nil_iff.mpr]
          · rfl
          · intro tx ht hsd
            rw [decide_eq_true_eq] at hsd
            have h1 := hty tx ht
            rw [hsd, ha] at h1
            rcases hs0 tx ht with ⟨h2, _⟩ | h2 <;> rw [h2] at h1 <;> exact absurd h1 (by decide)
        omega) (by rw [hcf]; omega)
      rw [hcf] at ht
      have hn1 : Reach E n1 := by have := Reach.push block hn; rwa [hp] at this
      have i := ih hn1 (h + 1) hb2 (fun b hb => hsend b (List.mem_cons_of_mem _ hb))
        (extra + declaredContractFees E.H block) (by omega) (by rw [e1]; omega)
      rw [i, List.length_cons, e1, e2]
      omega
  have := key 0 (by simpa using h0) (by simpa using hlt)
  simpa using this

/-- C77 and C81 (partial as above): once a chain of transfers between basic accounts is past block 52,888,984, the money in
existence is the cap, 21e14 Luna, and stays so. -/
theorem C77_cap_partial (hn : Reach E n) {blocks : List Block} (hc : Chain E n blocks n') (h : Nat)
    (hh : Consecutive h blocks) (h0 : total (accountOf n) = Policy.Spec.supply h)
    (hbasic : ∀ b ∈ blocks, ∀ body, b.body = some body → ∀ tx ∈ body.txs,
      (tx.getSender E.H).2 = 0 ∧ value tx + fee tx < 2 ^ 64)
    (hend : 52888984 ≤ h + blocks.length) : total (accountOf n') = 2100000000000000 := by
  rw [C77_supply_follows_schedule_partial hn hc h hh h0 hbasic]
  have h1 := Policy.spec_supply_le_cap (h + blocks.length)
  have h2 := Policy.rem_zero _ (h + blocks.length) rfl hend
  unfold Policy.rem at h2
  have h3 : Policy.Spec.cap = 2100000000000000 := rfl
  omega

/-- A state that has what the schedule prescribes at height 0, and a block of height 1 with a payment that can be pushed: the
hypotheses of the C77 theorems are met. -/
example (E : Env) (a b c : Addr) (hab : a ≠ b) (hac : a ≠ c) (hbc : b ≠ c) (hash : Hash32) (proof : Bytes) :
    ∃ n n' tx, Reach E n ∧ Chain E n [⟨1, hash, some ⟨c, [tx], []⟩⟩] n' ∧ Consecutive 0 [⟨1, hash, some ⟨c, [tx], []⟩⟩] ∧
      total (accountOf n) = Policy.Spec.supply 0 ∧ (tx.getSender E.H).2 = 0 ∧ value tx + fee tx < 2 ^ 64 ∧ 0 < value tx := by
  have hn : Reach E (Node.putAccount E.H a (some (.basic ⟨252000000000000⟩)) newNode).2 := .put _ _ .new
  have hacc : accountOf (Node.putAccount E.H a (some (.basic ⟨252000000000000⟩)) newNode).2 =
      AMap.set (accountOf newNode) a (.basic ⟨252000000000000⟩) := accountOf_put .new _ _
  have ea := congrFun hacc a
  rw [AMap.set_same] at ea
  have eb : (accountOf (Node.putAccount E.H a (some (.basic ⟨252000000000000⟩)) newNode).2 b).type = 0 := by
    rw [hacc, AMap.set_ne _ _ (Ne.symm hab), accountOf_new]; rfl
  have ec : (accountOf (Node.putAccount E.H a (some (.basic ⟨252000000000000⟩)) newNode).2 c).type = 0 := by
    rw [hacc, AMap.set_ne _ _ (Ne.symm hac), accountOf_new]; rfl
  obtain ⟨q1, _⟩ := single_push_node hn (tx := .extended ⟨[], a, 0, b, 0, 5, 1, 1, 1, 0, proof⟩) (hash := hash)
    (x := .basic ⟨252000000000000 - 6⟩) (height := 1) hab hac hbc (by decide) rfl
    (.inr (by rw [ea]; rfl)) rfl (creates_flags0 rfl) (by
      rw [ea, basic_out (d := 6) (by show (5 : UInt64) + 1 = 6; decide) (by decide)]) (fun h => h.2 rfl) eb ec
  refine ⟨_, _, .extended ⟨[], a, 0, b, 0, 5, 1, 1, 1, 0, proof⟩, hn, .cons (Prod.ext q1 rfl) .nil, ⟨rfl, trivial⟩, ?_, rfl, ?_, ?_⟩
  · rw [hacc]
    have t := total_set (accountOf newNode) a (.basic ⟨252000000000000⟩)
    have e0 : ∀ x, accountOf newNode x = .basic ⟨0⟩ := fun x => by rw [accountOf_new]
    have e1 : total (accountOf newNode) = 0 := by
      unfold total
      exact Finset.sum_eq_zero fun x _ => by rw [e0]; rfl
    rw [e0, e1] at t
    have e2 : (balance (.basic ⟨252000000000000⟩)).toNat = 252000000000000 := rfl
    have e3 : (balance (.basic ⟨0⟩)).toNat = 0 := rfl
    rw [e2, e3] at t
    have e4 : Policy.Spec.supply 0 = 252000000000000 := rfl
    omega
  · show (5 : UInt64).toNat + (1 : UInt64).toNat < 2 ^ 64; decide
  · show 0 < (5 : UInt64).toNat; decide

end Nimiq.Accounts
