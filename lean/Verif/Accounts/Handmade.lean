import Verif.Accounts.Crash
/-!
# C124: blocks made by hand with a nil transaction

`wire.BlockBody.Txs` is a slice of `wire.WrapTx`, a struct around the interface `wire.Tx`.  A decoder always fills it (C39), but
a program that builds a block itself can leave it nil (or put a nil `*BasicTx` or `*ExtendedTx` there: every method `Push` calls
on it reads a field, so it panics in the same place).  This is `Push` over such blocks.
-/
namespace Nimiq.Accounts
open Beserial Beserial.Spec Wire Spec Float64

/-- block.go:31-36 `BlockBody` with transactions that may be nil -/
structure HandBody where
  minerAddr : Addr
  txs : List (Option Tx)
  pruned : List (Addr × Option Account)

/-- block.go:11-28 `Block` with such a body -/
structure HandBlock where
  height : UInt32
  accountsHash : Hash32
  body : Option HandBody

/-- The block whose transactions are all there. -/
def Block.byHand (b : Block) : HandBlock :=
  ⟨b.height, b.accountsHash, b.body.map fun x => ⟨x.minerAddr, x.txs.map some, x.pruned⟩⟩

section
variable {σ : Type} (E : Env) (L : Ledger σ)

/-- `for _, tx := range block.Body.Txs` where the loop body starts with a method call on `tx.Tx` (accounts.go:103, 113, 127) -/
def forHand : List (Option Tx) → (Tx → M σ Unit) → M σ Unit
  | [], _ => return ()
  | none :: _, _ => M.panic
  | some tx :: txs, f => do
    f tx
    forHand txs f

/-- accounts.go:170-193; `tx.Tx.GetSender()` panics on nil -/
def pruneLoopHand : List (Option Tx) → PruneMap → M σ PruneMap
  | [], pruned => return pruned
  | none :: _, _ => M.panic
  | some tx :: txs, pruned => do
    let senderAddr := (tx.getSender E.H).1
    let sender ← L.getAccount senderAddr
    if isEmpty sender = false ∨ sender.type = 0 then pruneLoopHand txs pruned
    else
      match pruned.get senderAddr with
      | none => M.throw (.pruneMissing senderAddr)
      | some prunedAcc =>
        if accountEq prunedAcc (some sender) = false then M.throw (.pruneAltered senderAddr)
        else
          L.putAccount senderAddr none
          pruneLoopHand txs (pruned.del senderAddr)

/-- accounts.go:161-208 `pruneAccounts` -/
def pruneAccountsHand (body : HandBody) : M σ Unit := do
  let pruned ← pruneLoopHand E L body.txs (pruneMap body.pruned)
  if h : pruned.map (·.1) ≠ [] then M.throw (.pruneEarly (E.pick (pruned.map (·.1)) h).val)
  else return ()

/-- accounts.go:140-143; `tx.Tx.Amount()` panics on nil -/
def addFeesHand : UInt64 → List (Option Tx) → M σ UInt64
  | r, [] => return r
  | _, none :: _ => M.panic
  | r, some tx :: txs => addFeesHand (r + tx.amount.2) txs

/-- accounts.go:39-60, 101-208 `Push` of a block whose transactions may be nil -/
def pushHand (block : HandBlock) : M σ Unit :=
  match block.body with
  | none => M.panic
  | some body => do
    forHand body.txs fun tx =>
      let content := tx.content E.H
      pushTx L content.sender content.senderType tx block.height (applyOutgoing E)
    forHand body.txs fun tx =>
      let content := tx.content E.H
      let recipientType := if content.flags &&& 0x01 = 0 then content.recipientType else 0xFF
      pushTx L content.recipient recipientType tx block.height applyIncoming
    forHand body.txs fun tx =>
      let content := tx.content E.H
      if content.flags &&& 0x01 ≠ 0 then createContract E L tx block.height else return ()
    pruneAccountsHand E L body
    let reward ← L.blockReward block.height
    let reward ← addFeesHand reward body.txs
    pushTx L body.minerAddr 0 (coinbase body.minerAddr reward block.height) block.height applyIncoming

end

/-- accounts.go:39-60 `Accounts.Push`, on blocks made by hand -/
def PushHand (E : Env) (block : HandBlock) : M Node Unit := pushHand E (nodeLedger E.H) block

/-! ## Proofs -/

section
variable {σ : Type} {E : Env} {L : Ledger σ} {α β γ : Type}

theorem M.assoc (x : M σ α) (f : α → M σ β) (g : β → M σ γ) : ((x >>= f) >>= g) = (x >>= fun a => f a >>= g) := by
  funext s
  simp only [M.bind_eq]
  rcases x s with ⟨o, s'⟩
  cases o <;> rfl

theorem M.pure_bind' (a : α) (f : α → M σ β) : ((Pure.pure a : M σ α) >>= f) = f a := rfl

theorem M.panic_bind (f : α → M σ β) : ((M.panic : M σ α) >>= f) = M.panic := rfl

theorem forHand_some (f : Tx → M σ Unit) : ∀ txs : List Tx, forHand (txs.map some) f = forTxs txs f := by
  intro txs
  induction txs with
  | nil => rfl
  | cons t ts ih => simp only [List.map_cons, forHand, forTxs, ih]

theorem forHand_nil (f : Tx → M σ Unit) (rest : List (Option Tx)) : ∀ pre : List Tx,
    forHand (pre.map some ++ none :: rest) f = (forTxs pre f >>= fun _ => M.panic) := by
  intro pre
  induction pre with
  | nil => rfl
  | cons t ts ih => simp only [List.map_cons, List.cons_append, forHand, forTxs, ih, M.assoc]

theorem pruneLoopHand_some : ∀ (txs : List Tx) (pm : PruneMap),
    pruneLoopHand E L (txs.map some) pm = pruneLoop E L txs pm := by
  intro txs
  induction txs with
  | nil => intro pm; rfl
  | cons t ts ih =>
    intro pm
    simp only [List.map_cons, pruneLoopHand, pruneLoop, ih]
    rfl

theorem addFeesHand_some : ∀ (txs : List Tx) (r : UInt64),
    (addFeesHand r (txs.map some) : M σ UInt64) = Pure.pure (addFees r txs) := by
  intro txs
  induction txs with
  | nil => intro r; rfl
  | cons t ts ih => intro r; simp only [List.map_cons, addFeesHand, ih]; rfl

theorem pushHand_some (block : Block) : pushHand E L block.byHand = push E L block := by
  unfold pushHand push Block.byHand
  cases block.body with
  | none => rfl
  | some body =>
    simp only [Option.map_some, forHand_some, pruneAccountsHand, pruneLoopHand_some, addFeesHand_some, M.pure_bind']
    unfold pushSenders pushRecipients createContracts pruneAccounts pushInherents
    simp only [M.assoc]

/-- With a nil transaction only the first loop runs, up to it. -/
theorem pushHand_nil {block : HandBlock} {body : HandBody} {pre : List Tx} {rest : List (Option Tx)}
    (hb : block.body = some body) (ht : body.txs = pre.map some ++ none :: rest) :
    pushHand E L block = (pushSenders E L block.height ⟨body.minerAddr, pre, body.pruned⟩ >>= fun _ => M.panic) := by
  unfold pushHand pushSenders
  rw [hb]
  simp only [ht, forHand_nil, M.assoc, M.panic_bind]

end

variable {E : Env} {n : Node}

/-- The senders' loop in a dying process makes as many writes as there are transactions. -/
theorem senders_dying (height : UInt32) : ∀ (txs : List Tx) (miner : Addr) (pruned : List (Addr × Option Account)) (m : AMap)
    (j : Nat), ∃ k, pushSenders E (dying mapLedger) height ⟨miner, txs, pruned⟩ (m, txs.length + j) =
      ((pushSenders E mapLedger height ⟨miner, txs, pruned⟩ m).1,
        ((pushSenders E mapLedger height ⟨miner, txs, pruned⟩ m).2, k)) ∧
      ((pushSenders E mapLedger height ⟨miner, txs, pruned⟩ m).1 = .ok () → k = j) := by
  intro txs miner pruned
  unfold pushSenders
  simp only []
  induction txs with
  | nil => intro m j; exact ⟨0 + j, rfl, fun _ => by omega⟩
  | cons t ts ih =>
    intro m j
    simp only [forTxs, M.bind_eq]
    generalize hs : (t.content E.H).sender = a
    generalize (t.content E.H).senderType = ty
    unfold pushTx
    simp only [M.bind_eq, show (dying mapLedger).getAccount a (m, (t :: ts).length + j) = (.ok (m a), (m, (t :: ts).length + j))
      from rfl, show mapLedger.getAccount a m = (.ok (m a), m) from rfl]
    by_cases hty : ty ≠ 0xFF ∧ ty ≠ (m a).type
    · simp only [if_pos hty]
      exact ⟨_, rfl, fun h => by cases h⟩
    · simp only [if_neg hty, M.bind_eq, M.lift_eq]
      cases ho : applyOutgoing E (m a) t height with
      | err e => exact ⟨_, rfl, fun h => by cases h⟩
      | panic => exact ⟨_, rfl, fun h => by cases h⟩
      | ok x =>
        have hl : (t :: ts).length + j = (ts.length + j) + 1 := by simp only [List.length_cons]; omega
        have hp : (dying mapLedger).putAccount a (some x) (m, (t :: ts).length + j) = (.ok (), (m.set a x, ts.length + j)) := by
          rw [hl]; rfl
        simp only [hp, show mapLedger.putAccount a (some x) m = (.ok (), m.set a x) from rfl]
        exact ih (m.set a x) j

theorem hand_map (hn : Reach E n) {block : HandBlock} {body : HandBody} {pre : List Tx} {rest : List (Option Tx)}
    (hb : block.body = some body) (ht : body.txs = pre.map some ++ none :: rest) :
    (PushHand E block n).1 = (pushHand E mapLedger block (accountOf n)).1 ∧
    Rel E.H (PushHand E block n).2 (pushHand E mapLedger block (accountOf n)).2 := by
  unfold PushHand
  rw [pushHand_nil hb ht, pushHand_nil hb ht]
  exact Sim.bind (Sim.forTxs (fun tx => sim_pushTx (simLedger E.H) _ _ _ _ _) _) (fun _ => Sim.panic) _ _ hn.acc

/-- What it leaves behind is a state that completed calls can produce. -/
theorem hand_intact (hn : Reach E n) {block : HandBlock} {body : HandBody} {pre : List Tx} {rest : List (Option Tx)}
    (hb : block.body = some body) (ht : body.txs = pre.map some ++ none :: rest) : Reach E (PushHand E block n).2 := by
  unfold PushHand
  rw [pushHand_nil hb ht]
  have S : SimLedger (fun s t : Node => s = t ∧ Reach E s) (nodeLedger E.H) (nodeLedger E.H) := by
    refine ⟨fun a => ?_, fun a x => ?_, fun g => ?_⟩
    · rintro s _ ⟨rfl, hs⟩
      refine ⟨rfl, rfl, ?_⟩
      show Reach E (Node.getAccount a s).2
      rw [hs.acc.getAccount a]; exact hs
    · rintro s _ ⟨rfl, hs⟩
      exact ⟨rfl, rfl, .put a x hs⟩
    · rintro s _ ⟨rfl, hs⟩
      refine ⟨rfl, rfl, ?_⟩
      have hr := (simLedger E.H).reward g s _ hs.acc
      have ht : (Node.blockReward g s).2.tree = s.tree := by
        unfold Node.blockReward
        split <;> rfl
      show Reach E (Node.blockReward g s).2
      have := Reach.policy hs hr.2.cache
      rw [← ht] at this
      exact this
  exact (Sim.bind (Sim.forTxs (fun tx => sim_pushTx S _ _ _ _ _) _) (fun _ => Sim.panic (α := Unit)) n n ⟨rfl, hn⟩).2.2

theorem hand_state (hn : Reach E n) {block : HandBlock} {body : HandBody} {pre : List Tx} {rest : List (Option Tx)}
    (hb : block.body = some body) (ht : body.txs = pre.map some ++ none :: rest) :
    accountOf (PushHand E block n).2 =
      accountOf (PushUntil E pre.length ⟨block.height, block.accountsHash, some ⟨body.minerAddr, pre, body.pruned⟩⟩ n).2 := by
  rw [(hand_map hn hb ht).2.accountOf, (crash_map hn _ _).2, pushHand_nil hb ht]
  obtain ⟨k, h1, h2⟩ := senders_dying (E := E) block.height pre body.minerAddr body.pruned (accountOf n) 0
  rw [Nat.add_zero] at h1
  unfold push
  simp only [M.bind_eq, h1]
  rcases hs : pushSenders E mapLedger block.height ⟨body.minerAddr, pre, body.pruned⟩ (accountOf n) with ⟨o, m'⟩
  rw [hs] at h2
  cases o with
  | err e => rfl
  | panic => rfl
  | ok u =>
    have hk := h2 rfl
    subst hk
    have := (stepwise_rest (E := E) block.height ⟨body.minerAddr, pre, body.pruned⟩).1 m'
    simp only [M.bind_eq] at this ⊢
    rw [this]
    rfl

/-! ## C124 -/

/-- C124, blocks without a nil transaction: `Push` is the `Push` of all the other properties. -/
theorem C124_no_nil (block : Block) (n : Node) : PushHand E block.byHand n = Push E block n :=
  congrFun (pushHand_some (L := nodeLedger E.H) block) n

/-- C124, a nil transaction is never accepted: the push ends in an error, which is then the error that the block with only the
transactions before the nil one gives, or it panics. -/
theorem C124_refused_partial (hn : Reach E n) {block : HandBlock} {body : HandBody} {pre : List Tx} {rest : List (Option Tx)}
    (hb : block.body = some body) (ht : body.txs = pre.map some ++ none :: rest) :
    (PushHand E block n).1 = .panic ∨ ∃ e, (PushHand E block n).1 = .err e ∧
      (Push E ⟨block.height, block.accountsHash, some ⟨body.minerAddr, pre, body.pruned⟩⟩ n).1 = .err e := by
  rw [(hand_map hn hb ht).1, (hn.push_eq _).1, pushHand_nil hb ht]
  unfold push
  simp only [M.bind_eq]
  rcases pushSenders E mapLedger block.height ⟨body.minerAddr, pre, body.pruned⟩ (accountOf n) with ⟨o, m'⟩
  cases o with
  | err e => exact .inr ⟨e, rfl, rfl⟩
  | panic => exact .inl rfl
  | ok u => exact .inl rfl

/-- C124, what it leaves behind: the tree is intact, its accounts are those after the process had died just after debiting the
senders of the transactions before the nil one; only those senders' accounts can differ from before. -/
theorem C124_state_partial (hn : Reach E n) {block : HandBlock} {body : HandBody} {pre : List Tx} {rest : List (Option Tx)}
    (hb : block.body = some body) (ht : body.txs = pre.map some ++ none :: rest) :
    Reach E (PushHand E block n).2 ∧
    accountOf (PushHand E block n).2 =
      accountOf (PushUntil E pre.length ⟨block.height, block.accountsHash, some ⟨body.minerAddr, pre, body.pruned⟩⟩ n).2 ∧
    ∀ a, (∀ tx ∈ pre, (tx.getSender E.H).1 ≠ a) → accountOf (PushHand E block n).2 a = accountOf n a := by
  have hm := hand_map hn hb ht
  refine ⟨hand_intact hn hb ht, hand_state hn hb ht, fun a ha => ?_⟩
  rw [hm.2.accountOf, pushHand_nil hb ht, M.bind_eq]
  have hf : (pushSenders E mapLedger block.height ⟨body.minerAddr, pre, body.pruned⟩ (accountOf n)).2 a = accountOf n a := by
    unfold pushSenders
    refine forTxs_frame pre (accountOf n) fun tx htx m => ?_
    exact pushTx_frame _ _ _ _ _ _ _ (by rw [content_sender]; exact fun h => ha tx htx h.symm)
  rcases hs : pushSenders E mapLedger block.height ⟨body.minerAddr, pre, body.pruned⟩ (accountOf n) with ⟨o, m'⟩
  rw [hs] at hf
  cases o <;> exact hf

/-- C124, the money. If the block with only the transactions before the nil one is good, the push of the block with the nil
panics, and what the senders of those transactions were to pay is gone: nobody has it. (Value plus fee must not overflow, and
vesting contracts must not send more than they have: C55.) -/
theorem C124_money_partial (hn : Reach E n) {block : HandBlock} {body : HandBody} {pre : List Tx} {rest : List (Option Tx)}
    (hb : block.body = some body) (ht : body.txs = pre.map some ++ none :: rest)
    (hok : (Push E ⟨block.height, block.accountsHash, some ⟨body.minerAddr, pre, body.pruned⟩⟩ n).1 = .ok ())
    (hwrap : ∀ tx ∈ pre, (accountOf n (tx.getSender E.H).1).type = 0 → value tx + fee tx < 2 ^ 64)
    (hsolvent : ∀ a, (accountOf n a).type = 1 → sentValue E.H pre a ≤ funds (accountOf n a)) :
    (PushHand E block n).1 = .panic ∧
    total (accountOf (PushHand E block n).2) + (pre.map value).sum + fees pre =
      total (accountOf n) + contractFees E.H (accountOf n) pre := by
  have hm := hand_map hn hb ht
  rw [hm.2.accountOf, hm.1, pushHand_nil hb ht, M.bind_eq]
  rw [(hn.push_eq _).1] at hok
  obtain ⟨b', m1, m2, m3, m4, hb', h1, -⟩ := push_ok (Prod.ext hok rfl)
  cases hb'
  simp only [h1]
  refine ⟨rfl, ?_⟩
  rw [pushSenders_eq] at h1
  have h2 := senders_total hwrap hsolvent h1
  have h3 := debitsN_split E.H (accountOf n) pre
  show total m1 + _ + _ = _
  unfold fees
  omega

/-- C124 is false in what a user would hope for: that a block with a nil transaction is refused without effect. Take any
transfer of `d` coins (value and fee) before the nil one: the push panics with `a` debited, and the coins are gone. -/
theorem C124_violated (hn : Reach E n) {a c : Addr} {tx : Tx} {v d : UInt64} (height : UInt32) (hash : Hash32)
    (pruned : List (Addr × Option Account)) (rest : List (Option Tx)) (hs : tx.getSender E.H = (a, 0))
    (hd : tx.amount.1 + tx.amount.2 = d) (hd0 : d ≠ 0) (hv : d ≤ v) (ha : accountOf n a = .basic ⟨v⟩) :
    let r := PushHand E ⟨height, hash, some ⟨c, some tx :: none :: rest, pruned⟩⟩ n
    r.1 = .panic ∧ accountOf r.2 a = .basic ⟨v - d⟩ ∧ (∀ b, b ≠ a → accountOf r.2 b = accountOf n b) ∧
    total (accountOf r.2) + d.toNat = total (accountOf n) ∧ total (accountOf r.2) < total (accountOf n) := by
  intro r
  have hb : (⟨height, hash, some ⟨c, some tx :: none :: rest, pruned⟩⟩ : HandBlock).body =
      some ⟨c, some tx :: none :: rest, pruned⟩ := rfl
  have hm := hand_map hn (pre := [tx]) (rest := rest) hb rfl
  have hr : pushHand E mapLedger ⟨height, hash, some ⟨c, some tx :: none :: rest, pruned⟩⟩ (accountOf n) =
      (.panic, AMap.set (accountOf n) a (.basic ⟨v - d⟩)) := by
    rw [pushHand_nil (pre := [tx]) (rest := rest) hb rfl, M.bind_eq, pushSenders_eq]
    rw [forTxs_cons]
    unfold senderStep
    rw [pushTx_map, content_sender, content_senderType, hs, ha]
    have : applyOutgoing E (.basic ⟨v⟩) tx height = .ok (.basic ⟨v - d⟩) := by
      unfold applyOutgoing basicOutgoing
      simp only [hd]
      rw [if_neg (by simpa using hv)]
    rw [this]
    simp [forTxs_nil, Account.type, M.panic]
  rw [hr] at hm
  have hacc : accountOf r.2 = AMap.set (accountOf n) a (.basic ⟨v - d⟩) := hm.2.accountOf
  refine ⟨hm.1, ?_, ?_, ?_⟩
  · show accountOf r.2 a = _
    rw [hacc]; simp
  · intro b hb
    show accountOf r.2 b = _
    rw [hacc, AMap.set_ne _ _ hb]
  · rw [hacc]
    have h1 := total_set (accountOf n) a (.basic ⟨v - d⟩)
    rw [ha] at h1
    have h2 : (v - d).toNat = v.toNat - d.toNat := UInt64.toNat_sub_of_le _ _ hv
    have h3 : d.toNat ≤ v.toNat := UInt64.le_iff_toNat_le.mp hv
    have h4 : 0 < d.toNat := by
      rcases Nat.eq_zero_or_pos d.toNat with h | h
      · exact absurd (UInt64.toNat_inj.mp h) hd0
      · exact h
    simp only [balance] at h1
    omega

/-- The hypotheses can be met: 7 coins at `a`, of which 4 are spent before the nil transaction. -/
example (E : Env) (a b c : Addr) (height : UInt32) (hash : Hash32) : ∃ (n : Node) (tx : Tx), Reach E n ∧
    let r := PushHand E ⟨height, hash, some ⟨c, [some tx, none, some tx], []⟩⟩ n
    r.1 = .panic ∧ accountOf r.2 a = .basic ⟨3⟩ ∧ total (accountOf r.2) + 4 = total (accountOf n) := by
  have hn : Reach E (Node.putAccount E.H a (some (.basic ⟨7⟩)) newNode).2 := .put _ _ .new
  have := C124_violated hn (a := a) (c := c) (tx := .extended ⟨[], a, 0, b, 0, 3, 1, 1, 1, 0, []⟩) (v := 7) (d := 4) height hash []
    [some (.extended ⟨[], a, 0, b, 0, 3, 1, 1, 1, 0, []⟩)] rfl (show (3 : UInt64) + 1 = 4 by decide) (by decide) (by decide)
    (by rw [accountOf_put .new]; simp)
  exact ⟨_, _, hn, this.1, this.2.1, this.2.2.2.1⟩

/-- The hypotheses of `C124_money_partial` can be met by a transfer. -/
example (E : Env) (a b c : Addr) (hab : a ≠ b) (hac : a ≠ c) (hbc : b ≠ c) : ∃ (n : Node) (block : HandBlock) (body : HandBody)
    (pre : List Tx) (rest : List (Option Tx)), Reach E n ∧ block.body = some body ∧ body.txs = pre.map some ++ none :: rest ∧
    pre ≠ [] ∧ (Push E ⟨block.height, block.accountsHash, some ⟨body.minerAddr, pre, body.pruned⟩⟩ n).1 = .ok () ∧
    (∀ tx ∈ pre, (accountOf n (tx.getSender E.H).1).type = 0 → value tx + fee tx < 2 ^ 64) ∧
    (∀ a, (accountOf n a).type = 1 → sentValue E.H pre a ≤ funds (accountOf n a)) := by
  have hn : Reach E (Node.putAccount E.H a (some (.basic ⟨9⟩)) newNode).2 := .put _ _ .new
  have hacc : accountOf (Node.putAccount E.H a (some (.basic ⟨9⟩)) newNode).2 = AMap.set (fun _ => .basic ⟨0⟩) a (.basic ⟨9⟩) := by
    rw [accountOf_put .new, accountOf_new]
  have hx : ∀ x, (accountOf (Node.putAccount E.H a (some (.basic ⟨9⟩)) newNode).2 x).type = 0 := by
    intro x
    rw [hacc]
    by_cases h : x = a
    · subst h; rw [AMap.set_same]; rfl
    · rw [AMap.set_ne _ _ h]; rfl
  have := C118_twice_violated hn (a := a) (b := b) (c := c) (tx := .extended ⟨[], a, 0, b, 0, 3, 1, 1, 1, 0, []⟩) (v := 9) (d := 4)
    (height := 1) (BArr.zero 32) hab hac hbc (by decide) rfl rfl (by simp [creates, Tx.flags]) (show (3 : UInt64) + 1 = 4 by decide) (by decide) (by decide)
    (by rw [hacc, AMap.set_same]) (hx b) (hx c)
  refine ⟨_, ⟨1, BArr.zero 32, some ⟨c, [some (.extended ⟨[], a, 0, b, 0, 3, 1, 1, 1, 0, []⟩), none], []⟩⟩, _,
    [.extended ⟨[], a, 0, b, 0, 3, 1, 1, 1, 0, []⟩], [], hn, rfl, rfl, by simp, this.2.2.1, ?_, fun x h => ?_⟩
  · intro tx ht _
    rw [List.mem_singleton.mp ht]
    show (3 : UInt64).toNat + (1 : UInt64).toNat < 2 ^ 64
    decide
  · rw [hx x] at h; cases h

end Nimiq.Accounts
