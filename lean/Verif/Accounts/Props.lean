import Verif.Accounts.Supply
/-!
# C54, C55, C57, C58, C67: reading, conservation, overspending, frame, determinism

All statements are about nodes `n` that were reached through the API (`Reach E n`), the calls `Push`, `PutAccount`,
`GetAccount`, `Tree.Hash` on them, and what `GetAccount` answers afterwards.

A concrete block that meets the hypotheses of these theorems, and the theorems applied to it: Accounts/Witness.lean.
-/
namespace Nimiq.Accounts
open Beserial Wire Spec

variable {E : Env} {n n' : Node}

/-! ## C54 -/

/-- C54. `GetAccount` always answers and changes nothing; after `PutAccount(a, acc)` (which always succeeds) the account at
`a` is `acc`, or the initial account if `acc` is nil, and all others are what they were. An empty basic account is the
initial account. -/
theorem C54_read_your_writes (hn : Reach E n) (a b : Addr) (acc : Option Account) :
    (∃ x, Node.getAccount b n = (.ok x, n)) ∧
    (Node.putAccount E.H a acc n).1 = .ok () ∧
    (Node.getAccount b (Node.putAccount E.H a acc n).2).1 =
      if b = a then .ok (acc.getD (.basic ⟨0⟩)) else (Node.getAccount b n).1 := by
  have h := hn.acc
  have hp := h.putAccount a acc
  refine ⟨⟨_, h.getAccount b⟩, hp.1, ?_⟩
  rw [hp.2.getAccount b, h.getAccount b]
  by_cases hb : b = a
  · subst hb; simp [initialAccount]
  · rw [if_neg hb, AMap.set_ne _ _ hb]

/-- A fresh node has only initial accounts. -/
theorem C54_fresh (a : Addr) : Node.getAccount a newNode = (.ok (.basic ⟨0⟩), newNode) :=
  (rel_new (fun _ => BArr.zero 32)).getAccount a

/-- C54 for whole histories of puts: the last write to an address is what is read. -/
theorem C54_history (E : Env) (puts : List (Addr × Option Account)) (a : Addr) :
    let n := puts.foldl (fun n p => (Node.putAccount E.H p.1 p.2 n).2) newNode
    (Node.getAccount a n).1 = .ok ((((puts.filter fun p => p.1 = a).getLast?.bind (·.2))).getD (.basic ⟨0⟩)) := by
  have key : ∀ (l : List (Addr × Option Account)) (n : Node) (m : AMap), Rel E.H n m →
      Rel E.H (l.foldl (fun n p => (Node.putAccount E.H p.1 p.2 n).2) n)
        (fun a => match (l.filter fun p => p.1 = a).getLast? with | none => m a | some p => p.2.getD initialAccount) := by
    intro l
    induction l with
    | nil => intro n m h; exact h
    | cons p l ih =>
      intro n m h
      rw [List.foldl_cons]
      have := ih _ _ (h.putAccount p.1 p.2).2
      convert this using 2 with b
      by_cases hb : p.1 = b
      · rw [List.filter_cons_of_pos (by simpa using hb), List.getLast?_cons]
        cases (l.filter fun p => decide (p.1 = b)).getLast? with
        | none => subst hb; simp
        | some q => rfl
      · rw [List.filter_cons_of_neg (by simpa using hb)]
        cases (l.filter fun p => decide (p.1 = b)).getLast? with
        | none => simp only []; rw [AMap.set_ne _ _ (Ne.symm hb)]
        | some q => rfl
  intro n
  have := (key puts newNode _ (rel_new E.H)).getAccount a
  show (Node.getAccount a n).1 = _
  rw [this]
  cases (puts.filter fun p => decide (p.1 = a)).getLast? with
  | none => rfl
  | some q => rfl

example (E : Env) (a : Addr) : ∃ n, Reach E n ∧ (Node.getAccount a n).1 = .ok (.basic ⟨7⟩) := by
  refine ⟨_, Reach.put a (some (.basic ⟨7⟩)) .new, ?_⟩
  have := (C54_read_your_writes (E := E) .new a a (some (.basic ⟨7⟩))).2.2
  rw [this, if_pos rfl]; rfl

/-! ## C55 -/

theorem rewardAt_node (hn : Reach E n) {h : UInt32} (h0 : h ≠ 0) :
    ∃ c, Policy.blockReward n.cache h = .ok (rewardAt h, c) := by
  obtain ⟨c, hc, _⟩ := rewardAt_eq hn.acc.cache h0
  exact ⟨c, hc⟩

/-- How a successful push on a node looks on the map of its accounts. -/
theorem push_map (hn : Reach E n) {block : Block} (h : Push E block n = (.ok (), n')) :
    push E mapLedger block (accountOf n) = (.ok (), accountOf n') := by
  have := hn.push_eq block
  rw [h] at this
  exact Prod.ext this.1.symm this.2.symm

theorem height_pos {E : Env} {block : Block} {m m' : AMap} (h : push E mapLedger block m = (.ok (), m')) :
    block.height ≠ 0 := by
  obtain ⟨_, _, h0, _⟩ := push_result h
  exact h0

/-- C55 (partial: only when nothing overflows and only basic accounts send). A successful push adds exactly the block
reward to the money in existence. -/
theorem C55_conservation_partial (hn : Reach E n) (block : Block) (body : Body) (hb : block.body = some body)
    (h : Push E block n = (.ok (), n'))
    (hbasic : ∀ tx ∈ body.txs, (accountOf n (tx.getSender E.H).1).type = 0)
    (hwrap : ∀ tx ∈ body.txs, value tx + fee tx < 2 ^ 64)
    (r : UInt64) (c : List UInt64) (hr : Policy.blockReward n.cache block.height = .ok (r, c))
    (hlt : total (accountOf n) + r.toNat < 2 ^ 64) :
    total (accountOf n') = total (accountOf n) + r.toNat := by
  have hm := push_map hn h
  obtain ⟨c', hr'⟩ := rewardAt_node hn (height_pos hm)
  rw [hr] at hr'; cases hr'
  have hc : contractFees E.H (accountOf n) body.txs = 0 := by
    unfold contractFees
    rw [List.map_congr_left (g := fun _ => 0) (fun tx ht => by rw [if_pos (hbasic tx ht)])]
    simp
  have := push_total hm body hb (fun tx ht _ => hwrap tx ht) ?_ (by omega)
  · omega
  · intro a ha
    have : sentValue E.H body.txs a = 0 := by
      unfold sentValue
      rw [List.filter_eq_nil_iff.mpr]
      · rfl
      · intro tx ht hs
        have h0 := hbasic tx ht
        rw [decide_eq_true_eq] at hs
        rw [hs, ha] at h0
        cases h0
    omega

/-- C55 (partial), with contracts sending: fees of transactions sent by contracts are credited to the miner but never debited,
so the money in existence grows by the reward plus those fees. (Vesting accounts are assumed not to overdraw, C57.) -/
theorem C55_contract_fees_partial (hn : Reach E n) (block : Block) (body : Body) (hb : block.body = some body)
    (h : Push E block n = (.ok (), n'))
    (hwrap : ∀ tx ∈ body.txs, (accountOf n (tx.getSender E.H).1).type = 0 → value tx + fee tx < 2 ^ 64)
    (hsolvent : ∀ a, (accountOf n a).type = 1 → sentValue E.H body.txs a ≤ funds (accountOf n a))
    (r : UInt64) (c : List UInt64) (hr : Policy.blockReward n.cache block.height = .ok (r, c))
    (hlt : total (accountOf n) + r.toNat + contractFees E.H (accountOf n) body.txs < 2 ^ 64) :
    total (accountOf n') = total (accountOf n) + r.toNat + contractFees E.H (accountOf n) body.txs := by
  have hm := push_map hn h
  obtain ⟨c', hr'⟩ := rewardAt_node hn (height_pos hm)
  rw [hr] at hr'; cases hr'
  exact push_total hm body hb hwrap hsolvent hlt

/-- C55 (partial: modulo `2^64`), for every state and every block: whatever overflows, the money in existence changes by the
reward plus the fees of contract senders, modulo `2^64`. -/
theorem C55_modulo_partial (hn : Reach E n) (block : Block) (h : Push E block n = (.ok (), n')) :
    ∃ body r c, block.body = some body ∧ Policy.blockReward n.cache block.height = .ok (r, c) ∧
      total (accountOf n') % 2 ^ 64 = (total (accountOf n) + r.toNat + contractFees E.H (accountOf n) body.txs) % 2 ^ 64 := by
  have hm := push_map hn h
  obtain ⟨c', hr'⟩ := rewardAt_node hn (height_pos hm)
  obtain ⟨body, hb, ht⟩ := push_total_mod hm
  exact ⟨body, _, c', hb, hr', ht⟩

/-! ## C57 -/

/-- What one account pays in the sender phase. -/
theorem senders_spend {height : UInt32} (a : Addr) : ∀ {txs : List Tx} {m m' : AMap} {u : Unit},
    forTxs txs (senderStep E height) m = (.ok u, m') → (m a).type ≠ 1 →
    (∀ tx ∈ sentBy E.H a txs, (m a).type = 0 → value tx + fee tx < 2 ^ 64) →
    ((sentBy E.H a txs).map (debitN (m a))).sum ≤ (balance (m a)).toNat := by
  intro txs
  induction txs with
  | nil => intro m m' u _ _ _; simp [sentBy]
  | cons tx txs ih =>
    intro m m' u h ht hw
    obtain ⟨m1, h1, h2⟩ := forTxs_cons_ok h
    obtain ⟨x, e1, e2, _⟩ := pushTx_ok h1
    have e3 := applyOutgoing_ok e1
    rw [content_sender] at e1 e2 e3
    by_cases hs : (tx.getSender E.H).1 = a
    · rw [hs] at e1 e2 e3
      have hsent : sentBy E.H a (tx :: txs) = tx :: sentBy E.H a txs := by
        unfold sentBy; rw [List.filter_cons_of_pos (by simpa using hs)]
      rw [hsent] at hw ⊢
      have hle := applyOutgoing_le e1 ht
      have hd := debit_exact (hw tx (List.mem_cons_self ..))
      have hsub : (balance (m a) - debit (m a) tx).toNat = (balance (m a)).toNat - (debit (m a) tx).toNat :=
        UInt64.toNat_sub_of_le _ _ (by rw [UInt64.le_iff_toNat_le]; exact hle)
      have hm1 : m1 a = withBalance (m a) (balance (m a) - debit (m a) tx) := by rw [e2, AMap.set_same, e3]
      have i := ih (m := m1) h2 (by rw [hm1, type_withBalance]; exact ht) (by
        intro t htm; rw [hm1, type_withBalance]; exact hw t (List.mem_cons_of_mem _ htm))
      rw [hm1, debitN_withBalance, balance_withBalance, hsub] at i
      rw [List.map_cons, List.sum_cons]
      omega
    · have hsent : sentBy E.H a (tx :: txs) = sentBy E.H a txs := by
        unfold sentBy; rw [List.filter_cons_of_neg (by simpa using hs)]
      rw [hsent] at hw ⊢
      have hm1 : m1 a = m a := by rw [e2, AMap.set_ne _ _ (Ne.symm hs)]
      have i := ih (m := m1) h2 (by rw [hm1]; exact ht) (by rw [hm1]; exact hw)
      rw [hm1] at i; exact i

/-- C57 for basic accounts (partial: value plus fee must not wrap around in any of the account's transactions). If a block is
pushed, then what a basic account sends in it, with fees, was covered by its balance before the block. -/
theorem C57_basic_partial (hn : Reach E n) (block : Block) (body : Body) (hb : block.body = some body)
    (h : Push E block n = (.ok (), n')) (a : Addr) (ha : (accountOf n a).type = 0)
    (hwrap : ∀ tx ∈ body.txs, (tx.getSender E.H).1 = a → value tx + fee tx < 2 ^ 64) :
    sentWithFees E.H body.txs a ≤ funds (accountOf n a) := by
  obtain ⟨body', m1, m2, m3, m4, hb', h1, _⟩ := push_ok (push_map hn h)
  rw [hb] at hb'; cases hb'
  rw [pushSenders_eq] at h1
  have := senders_spend a h1 (by rw [ha]; decide) (by
    intro tx ht _
    have := List.mem_filter.mp ht
    exact hwrap tx this.1 (by simpa using this.2))
  rw [funds_eq]
  have e : debitN (accountOf n a) = fun tx => value tx + fee tx := by
    funext tx; simp [debitN, ha]
  rw [e] at this
  exact this

/-- C57 for hash time-locked contracts: what one sends in a pushed block was covered by its balance before the block. -/
theorem C57_htlc (hn : Reach E n) (block : Block) (body : Body) (hb : block.body = some body)
    (h : Push E block n = (.ok (), n')) (a : Addr) (ha : (accountOf n a).type = 2) :
    sentValue E.H body.txs a ≤ funds (accountOf n a) := by
  obtain ⟨body', m1, m2, m3, m4, hb', h1, _⟩ := push_ok (push_map hn h)
  rw [hb] at hb'; cases hb'
  rw [pushSenders_eq] at h1
  have := senders_spend a h1 (by rw [ha]; decide) (by intro tx _ h0; rw [ha] at h0; cases h0)
  rw [funds_eq]
  have e : debitN (accountOf n a) = value := by
    funext tx; simp [debitN, ha]
  rw [e] at this
  exact this

/-! ## C58 -/

/-- The call leaves the account at `b` alone, whatever its outcome. -/
def Frames {α : Type} (b : Addr) (x : M AMap α) : Prop := ∀ m, (x m).2 b = m b

theorem Frames.bind {α β : Type} {b : Addr} {x : M AMap α} {f : α → M AMap β} (h : Frames b x)
    (hf : ∀ a, Frames b (f a)) : Frames b (x >>= f) := by
  intro m
  rw [M.bind_eq]
  have h1 := h m
  rcases hx : x m with ⟨o, m1⟩
  rw [hx] at h1
  cases o with
  | ok a => exact (hf a m1).trans h1
  | err e => exact h1
  | panic => exact h1

theorem pruneLoop_frame {b : Addr} : ∀ (txs : List Tx) (pm : PruneMap), (∀ tx ∈ txs, (tx.getSender E.H).1 ≠ b) →
    Frames b (pruneLoop E mapLedger txs pm) := by
  intro txs
  induction txs with
  | nil => intro pm _ m; rfl
  | cons tx txs ih =>
    intro pm h m
    rw [pruneLoop_cons]
    have hrec := fun pm => ih pm fun t ht => h t (List.mem_cons_of_mem _ ht)
    split
    · exact hrec pm m
    · cases pm.get (tx.getSender E.H).1 with
      | none => rfl
      | some x =>
        simp only []
        split
        · rw [hrec, AMap.set_ne _ _ (Ne.symm (h tx (List.mem_cons_self ..)))]
        · rfl

theorem push_frame (block : Block) (b : Addr) (h : ∀ body, block.body = some body → b ≠ body.minerAddr ∧
    ∀ tx ∈ body.txs, (tx.getSender E.H).1 ≠ b ∧ tx.getRecipient.1 ≠ b) : Frames b (push E mapLedger block) := by
  unfold push
  cases hb : block.body with
  | none => intro m; rfl
  | some body =>
    obtain ⟨hm, htx⟩ := h body hb
    simp only []
    rw [pushSenders_eq, pushRecipients_eq, createContracts_eq]
    refine Frames.bind (fun m => ?_) fun _ => Frames.bind (fun m => ?_) fun _ => Frames.bind (fun m => ?_) fun _ =>
      Frames.bind ?_ fun _ => ?_
    · refine forTxs_frame _ _ fun tx ht m => pushTx_frame _ _ _ _ _ _ _ ?_
      rw [content_sender]; exact Ne.symm (htx tx ht).1
    · refine forTxs_frame _ _ fun tx ht m => pushTx_frame _ _ _ _ _ _ _ ?_
      rw [content_recipient]; exact Ne.symm (htx tx ht).2
    · refine forTxs_frame _ _ fun tx ht m => ?_
      rw [createStep_map]
      split
      · cases contractOf tx block.height (balance (m tx.getRecipient.1)) with
        | ok x => exact AMap.set_ne _ _ (Ne.symm (htx tx ht).2)
        | err e => rfl
        | panic => rfl
      · rfl
    · unfold pruneAccounts
      refine Frames.bind (pruneLoop_frame _ _ fun tx ht => (htx tx ht).1) fun pm m => ?_
      split <;> rfl
    · intro m
      rw [inherents_map]
      split
      · rfl
      · split
        · exact AMap.set_ne _ _ hm
        · rfl

/-- C58. Whether a push succeeds, fails or panics: an account that is neither the miner's, nor a sender's or recipient's of one
of the block's transactions, is unchanged. -/
theorem C58_frame (hn : Reach E n) (block : Block) (b : Addr)
    (h : ∀ body, block.body = some body → b ≠ body.minerAddr ∧
      ∀ tx ∈ body.txs, (tx.getSender E.H).1 ≠ b ∧ tx.getRecipient.1 ≠ b) :
    (Node.getAccount b (Push E block n).2).1 = (Node.getAccount b n).1 := by
  have hp := hn.acc.push block
  rw [hp.2.getAccount b, hn.acc.getAccount b, push_frame block b h]

/-! ## C67 -/

/-- C67. Two nodes, however they came about, that answer `GetAccount` alike: pushing the same block has the same outcome on
both, and afterwards they again have the same accounts and the same tree hash. -/
theorem C67_deterministic {n1 n2 : Node} (h1 : Reach E n1) (h2 : Reach E n2)
    (hsame : ∀ a, (Node.getAccount a n1).1 = (Node.getAccount a n2).1) (block : Block) :
    (Push E block n1).1 = (Push E block n2).1 ∧
    (∀ a, (Node.getAccount a (Push E block n1).2).1 = (Node.getAccount a (Push E block n2).2).1) ∧
    (Node.hash E.H (Push E block n1).2).1 = (Node.hash E.H (Push E block n2).2).1 := by
  have hm : accountOf n1 = accountOf n2 := by
    funext a; unfold accountOf; rw [hsame]
  have p1 := h1.acc.push block
  have p2 := h2.acc.push block
  rw [← hm] at p2
  refine ⟨p1.1.trans p2.1.symm, ?_, ?_⟩
  · intro a; rw [p1.2.getAccount, p2.2.getAccount]
  · rw [p1.2.hash, p2.2.hash]

/-- C67. The hash of a node is the Merkle-Patricia root of its accounts' serialisations, and always available. -/
theorem C67_hash (hn : Reach E n) : ∃ M : Tree.Spec.Mapping, (Node.hash E.H n).1 = .ok (Tree.Spec.rootHash E.H M) ∧
    ∀ a, (M a = [] ∧ accountOf n a = .basic ⟨0⟩) ∨ (accountOf n a ≠ .basic ⟨0⟩ ∧ M a = accountLayout (accountOf n a)) := by
  refine ⟨_, by rw [hn.acc.hash], fun a => ?_⟩
  by_cases h : accountOf n a = initialAccount
  · exact .inl ⟨by simp [entryOf, h], h⟩
  · exact .inr ⟨h, by simp [entryOf, h]⟩

end Nimiq.Accounts
