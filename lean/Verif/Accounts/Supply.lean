import Verif.Accounts.Prune
import Verif.Accounts.Spec
/-!
# Conservation of money (C55, C57)
-/
namespace Nimiq.Accounts
open Beserial Wire Spec

theorem funds_eq (a : Account) : funds a = (balance a).toNat := by cases a <;> rfl

theorem total_set (m : AMap) (a : Addr) (x : Account) :
    total (m.set a x) + (balance (m a)).toNat = total m + (balance x).toNat := by
  unfold total
  rw [← Finset.add_sum_erase Finset.univ (fun b => funds (m b)) (Finset.mem_univ a),
    ← Finset.add_sum_erase Finset.univ (fun b => funds (m.set a x b)) (Finset.mem_univ a)]
  have : ∑ b ∈ Finset.univ.erase a, funds (m.set a x b) = ∑ b ∈ Finset.univ.erase a, funds (m b) := by
    apply Finset.sum_congr rfl
    intro b hb
    rw [AMap.set_ne _ _ (Finset.ne_of_mem_erase hb)]
  rw [this, AMap.set_same, funds_eq, funds_eq]
  omega

theorem balance_le_total (m : AMap) (a : Addr) : (balance (m a)).toNat ≤ total m := by
  rw [← funds_eq]
  exact Finset.single_le_sum (f := fun b => funds (m b)) (fun _ _ => Nat.zero_le _) (Finset.mem_univ a)

/-- What the sender's account loses, without wrap-around. -/
def debitN (acc : Account) (tx : Tx) : Nat := value tx + if acc.type = 0 then fee tx else 0

theorem debit_mod (acc : Account) (tx : Tx) : (debit acc tx).toNat = debitN acc tx % 2 ^ 64 := by
  have hv := tx.amount.1.toNat_lt
  cases acc <;> simp [debit, debitN, value, fee, Account.type, UInt64.toNat_add]

theorem debitN_withBalance (acc : Account) (v : UInt64) : debitN (withBalance acc v) = debitN acc := by
  funext tx; simp [debitN]

/-- Sums of debits given the senders' accounts. -/
def debitsN (H : Bytes → Hash32) (m : AMap) (txs : List Tx) : Nat :=
  (txs.map fun tx => debitN (m (tx.getSender H).1) tx).sum

theorem debitsN_congr {H : Bytes → Hash32} {m m' : AMap} (h : ∀ a, (m' a).type = (m a).type) (txs : List Tx) :
    debitsN H m' txs = debitsN H m txs := by
  unfold debitsN debitN
  simp only [h]

theorem debitsN_split (H : Bytes → Hash32) (m : AMap) (txs : List Tx) :
    debitsN H m txs + contractFees H m txs = (txs.map value).sum + (txs.map fee).sum := by
  induction txs with
  | nil => rfl
  | cons tx txs ih =>
    simp only [debitsN, contractFees, List.map_cons, List.sum_cons] at *
    by_cases ht : (m (tx.getSender H).1).type = 0
    · simp only [debitN, ht, if_true] at *; omega
    · simp only [debitN, ht, if_false] at *; omega

theorem type_set_debit {m : AMap} {a : Addr} {v : UInt64} (b : Addr) :
    (m.set a (withBalance (m a) v) b).type = (m b).type := by
  by_cases h : b = a
  · subst h; simp
  · rw [AMap.set_ne _ _ h]

/-! ## Modulo 2^64, without any assumption -/

theorem senders_total_mod {E : Env} {height : UInt32} : ∀ {txs : List Tx} {m m' : AMap} {u : Unit},
    forTxs txs (senderStep E height) m = (.ok u, m') →
      (total m' + debitsN E.H m txs) % 2 ^ 64 = total m % 2 ^ 64 := by
  intro txs
  induction txs with
  | nil => intro m m' u h; rw [forTxs_nil] at h; cases h; simp [debitsN]
  | cons tx txs ih =>
    intro m m' u h
    obtain ⟨m1, h1, h2⟩ := forTxs_cons_ok h
    obtain ⟨x, e1, e2, _⟩ := pushTx_ok h1
    have e3 := applyOutgoing_ok e1
    rw [content_sender] at e2 e3
    have i := ih h2
    have hset := total_set m (tx.getSender E.H).1 x
    rw [← e2] at hset
    rw [e3, balance_withBalance, UInt64.toNat_sub, debit_mod] at hset
    have hcong : debitsN E.H m1 txs = debitsN E.H m txs := by
      apply debitsN_congr; intro a; rw [e2, e3]; exact type_set_debit a
    rw [hcong] at i
    have hc : debitsN E.H m (tx :: txs) = debitN (m (tx.getSender E.H).1) tx + debitsN E.H m txs := by
      simp [debitsN]
    rw [hc]
    have hb := (balance (m (tx.getSender E.H).1)).toNat_lt
    generalize debitN (m (tx.getSender E.H).1) tx = d at *
    generalize debitsN E.H m txs = D at *
    generalize (balance (m (tx.getSender E.H).1)).toNat = b at *
    omega

theorem recipients_total_mod {E : Env} {height : UInt32} : ∀ {txs : List Tx} {m m' : AMap} {u : Unit},
    forTxs txs (recipientStep E height) m = (.ok u, m') →
      total m' % 2 ^ 64 = (total m + (txs.map value).sum) % 2 ^ 64 := by
  intro txs
  induction txs with
  | nil => intro m m' u h; rw [forTxs_nil] at h; cases h; simp
  | cons tx txs ih =>
    intro m m' u h
    obtain ⟨m1, h1, h2⟩ := forTxs_cons_ok h
    obtain ⟨x, e1, e2, _⟩ := pushTx_ok h1
    obtain ⟨_, e3⟩ := applyIncoming_ok e1
    rw [content_recipient] at e2 e3
    have i := ih h2
    have hset := total_set m tx.getRecipient.1 x
    rw [← e2] at hset
    rw [e3, balance_withBalance, UInt64.toNat_add] at hset
    rw [List.map_cons, List.sum_cons]
    have hv : value tx = tx.amount.1.toNat := rfl
    rw [hv]
    generalize tx.amount.1.toNat = d at *
    generalize (txs.map value).sum = D at *
    generalize (balance (m tx.getRecipient.1)).toNat = b at *
    omega

theorem creates_total {E : Env} {height : UInt32} : ∀ {txs : List Tx} {m m' : AMap} {u : Unit},
    forTxs txs (createStep E height) m = (.ok u, m') → total m' = total m := by
  intro txs
  induction txs with
  | nil => intro m m' u h; rw [forTxs_nil] at h; cases h; rfl
  | cons tx txs ih =>
    intro m m' u h
    obtain ⟨m1, h1, h2⟩ := forTxs_cons_ok h
    rw [ih h2]
    rw [createStep_map] at h1
    split at h1
    · cases hk : contractOf tx height (balance (m tx.getRecipient.1)) with
      | err e => rw [hk] at h1; cases h1
      | panic => rw [hk] at h1; cases h1
      | ok x =>
        rw [hk] at h1; cases h1
        have := total_set m tx.getRecipient.1 x
        rw [(contractOf_ok hk).1] at this
        omega
    · cases h1; rfl

theorem prune_total {H : Bytes → Hash32} {txs : List Tx} {m : AMap} : total (afterPrune H txs m) = total m := by
  unfold total
  apply Finset.sum_congr rfl
  intro a _
  unfold afterPrune
  split
  · rename_i h
    rw [funds_eq, funds_eq, h.2.1]; rfl
  · rfl

theorem fees_mod (txs : List Tx) : ((txs.map fun tx : Tx => tx.amount.2).sum).toNat = (txs.map fee).sum % 2 ^ 64 := by
  induction txs with
  | nil => rfl
  | cons tx txs ih =>
    rw [List.map_cons, List.sum_cons, List.map_cons, List.sum_cons, UInt64.toNat_add, ih]
    have : fee tx = tx.amount.2.toNat := rfl
    rw [this]
    omega

/-- Conservation modulo `2^64`, whatever happens. -/
theorem push_total_mod {E : Env} {block : Block} {m m' : AMap} (h : push E mapLedger block m = (.ok (), m')) :
    ∃ body, block.body = some body ∧ total m' % 2 ^ 64 =
      (total m + (rewardAt block.height).toNat + contractFees E.H m body.txs) % 2 ^ 64 := by
  obtain ⟨body, m1, m2, m3, m4, hb, h1, h2, h3, h4, h5⟩ := push_ok h
  rw [pushSenders_eq] at h1
  rw [pushRecipients_eq] at h2
  rw [createContracts_eq] at h3
  refine ⟨body, hb, ?_⟩
  have t1 := senders_total_mod h1
  have t2 := recipients_total_mod h2
  have t3 := creates_total h3
  have t4 : total m4 = total m3 := by rw [(prune_ok h4).1, prune_total]
  obtain ⟨_, _, e5⟩ := inherents_ok h5
  have t5 := total_set m4 body.minerAddr (withBalance (m4 body.minerAddr) (balance (m4 body.minerAddr) +
    (rewardAt block.height + (body.txs.map fun tx => tx.amount.2).sum)))
  rw [show m4.set body.minerAddr _ = m' from e5.symm] at t5
  rw [balance_withBalance, UInt64.toNat_add, UInt64.toNat_add, fees_mod] at t5
  have t6 := debitsN_split E.H m body.txs
  generalize debitsN E.H m body.txs = D at *
  generalize contractFees E.H m body.txs = C at *
  generalize (body.txs.map value).sum = V at *
  generalize (body.txs.map fee).sum = F at *
  generalize (balance (m4 body.minerAddr)).toNat = b at *
  generalize (rewardAt block.height).toNat = r at *
  omega

/-! ## Exactly, when nothing overflows -/

theorem applyOutgoing_le {E : Env} {acc x : Account} {tx : Tx} {h : UInt32} (e : applyOutgoing E acc tx h = .ok x)
    (ht : acc.type ≠ 1) : (debit acc tx).toNat ≤ (balance acc).toNat := by
  cases acc with
  | basic a =>
    simp only [applyOutgoing, basicOutgoing] at e
    split at e
    · cases e
    · rename_i hc
      rw [UInt64.not_lt, UInt64.le_iff_toNat_le] at hc
      exact hc
  | vesting a => exact absurd rfl ht
  | htlc a =>
    simp only [applyOutgoing, htlcOutgoing, Out.bind_eq_ok] at e
    obtain ⟨t, htx, e⟩ := e
    have := asExtendedPtr_ok htx; subst this
    split at e
    · cases e
    · rename_i hc
      rw [UInt64.not_lt, UInt64.le_iff_toNat_le] at hc
      exact hc

/-- Value plus fee of the transactions of basic senders does not wrap around. -/
def NoWrap (H : Bytes → Hash32) (m : Addr → Account) (txs : List Tx) : Prop :=
  ∀ tx ∈ txs, (m (tx.getSender H).1).type = 0 → value tx + fee tx < 2 ^ 64

/-- Vesting accounts send no more than they have. -/
def VestingSolvent (H : Bytes → Hash32) (m : Addr → Account) (txs : List Tx) : Prop :=
  ∀ a, (m a).type = 1 → sentValue H txs a ≤ funds (m a)

theorem debit_exact {acc : Account} {tx : Tx} (h : acc.type = 0 → value tx + fee tx < 2 ^ 64) :
    (debit acc tx).toNat = debitN acc tx := by
  rw [debit_mod]
  apply Nat.mod_eq_of_lt
  unfold debitN
  by_cases ht : acc.type = 0
  · rw [if_pos ht]; exact h ht
  · rw [if_neg ht]; exact tx.amount.1.toNat_lt

theorem senders_total {E : Env} {height : UInt32} : ∀ {txs : List Tx} {m m' : AMap} {u : Unit},
    NoWrap E.H m txs → VestingSolvent E.H m txs →
    forTxs txs (senderStep E height) m = (.ok u, m') → total m' + debitsN E.H m txs = total m := by
  intro txs
  induction txs with
  | nil => intro m m' u _ _ h; rw [forTxs_nil] at h; cases h; simp [debitsN]
  | cons tx txs ih =>
    intro m m' u hw hv h
    obtain ⟨m1, h1, h2⟩ := forTxs_cons_ok h
    obtain ⟨x, e1, e2, _⟩ := pushTx_ok h1
    have e3 := applyOutgoing_ok e1
    have hle : (debit (m (tx.getSender E.H).1) tx).toNat ≤ (balance (m (tx.getSender E.H).1)).toNat := by
      by_cases ht : (m (tx.getSender E.H).1).type = 1
      · have := hv _ ht
        rw [sentValue, List.filter_cons_of_pos (by simp), List.map_cons, List.sum_cons, funds_eq] at this
        have hd := debit_exact (acc := m (tx.getSender E.H).1) (tx := tx) (hw tx (List.mem_cons_self ..))
        rw [hd, debitN, ht]
        simp only [show (1 : UInt8) ≠ 0 by decide, if_false]
        omega
      · rw [content_sender] at e1; exact applyOutgoing_le e1 ht
    have hd := debit_exact (acc := m (tx.getSender E.H).1) (tx := tx) (hw tx (List.mem_cons_self ..))
    rw [content_sender] at e2 e3
    have hty : ∀ a, (m1 a).type = (m a).type := by
      intro a; rw [e2, e3]; exact type_set_debit a
    have hsub : (balance (m (tx.getSender E.H).1) - debit (m (tx.getSender E.H).1) tx).toNat =
        (balance (m (tx.getSender E.H).1)).toNat - (debit (m (tx.getSender E.H).1) tx).toNat :=
      UInt64.toNat_sub_of_le _ _ (by rw [UInt64.le_iff_toNat_le]; exact hle)
    have i := ih (m := m1) ?_ ?_ h2
    · have hset := total_set m (tx.getSender E.H).1 x
      rw [← e2] at hset
      rw [e3, balance_withBalance, hsub] at hset
      rw [debitsN_congr hty] at i
      have hc : debitsN E.H m (tx :: txs) = debitN (m (tx.getSender E.H).1) tx + debitsN E.H m txs := by
        simp [debitsN]
      rw [hc]
      omega
    · intro t ht h0
      rw [hty] at h0
      exact hw t (List.mem_cons_of_mem _ ht) h0
    · intro a ha
      rw [hty] at ha
      have := hv a ha
      rw [funds_eq] at this ⊢
      by_cases hs : (tx.getSender E.H).1 = a
      · rw [sentValue, List.filter_cons_of_pos (by simpa using hs), List.map_cons, List.sum_cons] at this
        have hd' := hd
        rw [hs] at hd' hsub
        rw [e2, hs, AMap.set_same, e3, hs, balance_withBalance, hsub, hd', debitN, ha]
        simp only [show (1 : UInt8) ≠ 0 by decide, if_false]
        unfold sentValue
        omega
      · rw [sentValue, List.filter_cons_of_neg (by simpa using hs)] at this
        rw [e2, AMap.set_ne _ _ (Ne.symm hs)]
        exact this

theorem recipients_total {E : Env} {height : UInt32} : ∀ {txs : List Tx} {m m' : AMap} {u : Unit},
    total m + (txs.map value).sum < 2 ^ 64 →
    forTxs txs (recipientStep E height) m = (.ok u, m') → total m' = total m + (txs.map value).sum := by
  intro txs
  induction txs with
  | nil => intro m m' u _ h; rw [forTxs_nil] at h; cases h; simp
  | cons tx txs ih =>
    intro m m' u hlt h
    obtain ⟨m1, h1, h2⟩ := forTxs_cons_ok h
    obtain ⟨x, e1, e2, _⟩ := pushTx_ok h1
    obtain ⟨_, e3⟩ := applyIncoming_ok e1
    rw [content_recipient] at e2 e3
    rw [List.map_cons, List.sum_cons] at hlt ⊢
    have hset := total_set m tx.getRecipient.1 x
    rw [← e2] at hset
    have hb := balance_le_total m tx.getRecipient.1
    have hv : value tx = tx.amount.1.toNat := rfl
    rw [e3, balance_withBalance, UInt64.toNat_add, Nat.mod_eq_of_lt (by omega)] at hset
    rw [ih (by omega) h2]
    omega

/-- Exact conservation. -/
theorem push_total {E : Env} {block : Block} {m m' : AMap} (h : push E mapLedger block m = (.ok (), m')) (body : Body)
    (hb : block.body = some body) (hw : NoWrap E.H m body.txs) (hv : VestingSolvent E.H m body.txs)
    (hlt : total m + (rewardAt block.height).toNat + contractFees E.H m body.txs < 2 ^ 64) :
    total m' = total m + (rewardAt block.height).toNat + contractFees E.H m body.txs := by
  obtain ⟨body', m1, m2, m3, m4, hb', h1, h2, h3, h4, h5⟩ := push_ok h
  rw [hb] at hb'; cases hb'
  rw [pushSenders_eq] at h1
  rw [pushRecipients_eq] at h2
  rw [createContracts_eq] at h3
  have t6 := debitsN_split E.H m body.txs
  have hdv : (body.txs.map value).sum ≤ debitsN E.H m body.txs := by
    unfold debitsN debitN
    generalize body.txs = txs
    induction txs with
    | nil => simp
    | cons tx txs ih => simp only [List.map_cons, List.sum_cons]; omega
  have t1 := senders_total hw hv h1
  have t2 := recipients_total (by omega) h2
  have t3 := creates_total h3
  have t4 : total m4 = total m3 := by rw [(prune_ok h4).1, prune_total]
  obtain ⟨_, _, e5⟩ := inherents_ok h5
  have t5 := total_set m4 body.minerAddr (withBalance (m4 body.minerAddr) (balance (m4 body.minerAddr) +
    (rewardAt block.height + (body.txs.map fun tx => tx.amount.2).sum)))
  rw [show m4.set body.minerAddr _ = m' from e5.symm] at t5
  have hbal := balance_le_total m4 body.minerAddr
  rw [balance_withBalance, UInt64.toNat_add, UInt64.toNat_add, fees_mod,
    Nat.mod_eq_of_lt (a := (body.txs.map fee).sum) (by omega),
    Nat.mod_eq_of_lt (a := (rewardAt block.height).toNat + _) (by omega), Nat.mod_eq_of_lt (by omega)] at t5
  omega

end Nimiq.Accounts
