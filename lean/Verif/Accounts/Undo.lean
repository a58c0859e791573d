import Verif.Accounts.ChainSupply
import Verif.Accounts.PruneProps
/-!
# C86: a pushed block can be undone, but not with `Revert`

accounts.go:62-66 documents `Revert` as the exact inverse of `Push`.  The code panics.  What a correct implementation would
need is here: the block and the new accounts determine the old accounts, by an explicit function `undo`.
-/
namespace Nimiq.Accounts
open Beserial Beserial.Spec Wire Spec Float64

variable {E : Env} {n n' : Node}

/-- accounts.go:62-66 `Revert` -/
def Revert (_E : Env) (_block : Block) : M Node Unit := M.panic

/-! ## Undoing, address by address -/

/-- Take back the reward and the fees of the block. -/
def undoInherents (height : UInt32) (body : Body) (m : AMap) : AMap := fun a =>
  if a = body.minerAddr then
    withBalance (m a) (balance (m a) - (rewardAt height + (body.txs.map fun tx => tx.amount.2).sum))
  else m a

/-- Put back what the block's prune list quotes. -/
def undoPrune (body : Body) (m : AMap) : AMap := fun a =>
  match quoted body.pruned a with
  | some (some acc) => acc
  | _ => m a

/-- Contracts the block created were basic accounts of the same balance. -/
def undoCreate (body : Body) (m : AMap) : AMap := fun a =>
  match lastCreate a body.txs with
  | some _ => .basic ⟨balance (m a)⟩
  | none => m a

/-- Take back what was received. -/
def undoRecipients (body : Body) (m : AMap) : AMap := fun a =>
  withBalance (m a) (balance (m a) - ((receivedBy a body.txs).map fun tx => tx.amount.1).sum)

/-- Give back what was sent. -/
def undoSenders (H : Bytes → Hash32) (body : Body) (m : AMap) : AMap := fun a =>
  withBalance (m a) (balance (m a) + ((sentBy H a body.txs).map (debit (m a))).sum)

/-- The accounts before a block, from the block and the accounts after it. -/
def undo (H : Bytes → Hash32) (height : UInt32) (body : Body) (m : AMap) : AMap :=
  undoSenders H body (undoRecipients body (undoCreate body (undoPrune body (undoInherents height body m))))

theorem undoSenders_after (H : Bytes → Hash32) (body : Body) (m : AMap) :
    undoSenders H body (afterSenders H body.txs m) = m := by
  funext a
  simp only [undoSenders, afterSenders, balance_withBalance, withBalance_withBalance, debit_withBalance]
  exact withBalance_eq_self (by grind)

theorem undoRecipients_after (body : Body) (m : AMap) : undoRecipients body (afterRecipients body.txs m) = m := by
  funext a
  simp only [undoRecipients, afterRecipients, balance_withBalance, withBalance_withBalance]
  exact withBalance_eq_self (by grind)

theorem basic_of_type {acc : Account} (h : acc.type = 0) : acc = .basic ⟨balance acc⟩ := by
  cases acc with
  | basic a => rfl
  | vesting a => cases h
  | htlc a => cases h

theorem undoCreate_after {height : UInt32} {body : Body} {m : AMap}
    (h1 : ∀ tx ∈ body.txs, (m tx.getRecipient.1).type = 0)
    (h2 : ∀ tx ∈ body.txs, creates tx = true → ∃ x, contractOf tx height (balance (m tx.getRecipient.1)) = .ok x) :
    undoCreate body (afterCreate height body.txs m) = m := by
  funext a
  unfold undoCreate afterCreate
  cases hl : lastCreate a body.txs with
  | none => rfl
  | some tx =>
    have hm := List.mem_filter.mp (List.mem_of_getLast? hl)
    simp only [decide_eq_true_eq] at hm
    obtain ⟨x, hx⟩ := h2 tx hm.1 hm.2.1
    have ht := h1 tx hm.1
    rw [hm.2.2] at hx ht
    simp only [hx]
    rw [(contractOf_ok hx).1]
    exact (basic_of_type ht).symm

theorem undoPrune_after {H : Bytes → Hash32} {body : Body} {m : AMap} (h : PruneOk H body m) :
    undoPrune body (afterPrune H body.txs m) = m := by
  funext a
  unfold undoPrune afterPrune
  by_cases hc : Sends H body.txs a ∧ Dead (m a)
  · rw [h.1 a hc.1 hc.2]
  · have : quoted body.pruned a = none := by
      by_contra hq; exact hc (h.2 a hq)
    rw [this, if_neg hc]

theorem undoInherents_after (height : UInt32) (body : Body) (m : AMap) :
    undoInherents height body (afterInherents height body m) = m := by
  funext a
  unfold undoInherents afterInherents
  by_cases ha : a = body.minerAddr
  · subst ha
    rw [if_pos rfl, AMap.set_same, balance_withBalance, withBalance_withBalance]
    exact withBalance_eq_self (by grind)
  · rw [if_neg ha, AMap.set_ne _ _ ha]

theorem undo_push {block : Block} {body : Body} (hb : block.body = some body) {m m' : AMap}
    (h : push E mapLedger block m = (.ok (), m')) : undo E.H block.height body m' = m := by
  obtain ⟨body', hb', h0, s1, s2, s3, s4, s5, rfl⟩ := push_iff.mp h
  rw [hb] at hb'; cases hb'
  obtain ⟨body', hb', _, r1, _, _, r2, _⟩ := push_result h
  rw [hb] at hb'; cases hb'
  unfold undo
  rw [undoInherents_after, undoPrune_after s4]
  unfold afterTransfers
  rw [undoCreate_after (fun tx ht => by simpa [afterRecipients, afterSenders] using r1 tx ht) r2,
    undoRecipients_after, undoSenders_after]

/-! ## C86 -/

/-- C86 (what a correct `Revert` has to compute exists): the accounts before a successful push are a function of the block and
the accounts after it. -/
theorem C86_undo (hn : Reach E n) (block : Block) (body : Body) (hb : block.body = some body)
    (hp : Push E block n = (.ok (), n')) (a : Addr) :
    accountOf n a = undo E.H block.height body (accountOf n') a := by
  rw [undo_push hb (push_map hn hp)]

/-- C86: two different states never become the same by the same block. -/
theorem C86_push_injective {n1 n2 n1' n2' : Node} (h1 : Reach E n1) (h2 : Reach E n2) (block : Block)
    (p1 : Push E block n1 = (.ok (), n1')) (p2 : Push E block n2 = (.ok (), n2'))
    (he : accountOf n1' = accountOf n2') : accountOf n1 = accountOf n2 := by
  obtain ⟨body, hb, _⟩ := push_iff.mp (push_map h1 p1)
  funext a
  rw [C86_undo h1 block body hb p1, C86_undo h2 block body hb p2, he]

/-- C86: the same for whole chains. -/
theorem C86_chain_injective {n1 n2 n1' n2' : Node} {blocks : List Block} (h1 : Reach E n1) (h2 : Reach E n2)
    (c1 : Chain E n1 blocks n1') (c2 : Chain E n2 blocks n2') (he : accountOf n1' = accountOf n2') :
    accountOf n1 = accountOf n2 := by
  induction c1 generalizing n2 with
  | nil => cases c2; exact he
  | @cons n n1 _ block blocks p1 _ ih =>
    cases c2 with
    | cons p2 c2 =>
      exact C86_push_injective h1 h2 _ p1 p2
        (ih (by have := Reach.push block h1; rwa [p1] at this) (by have := Reach.push block h2; rwa [p2] at this) c2 he)

/-- C86 is false of the code: `Revert` never returns, not even right after the push of the same block. -/
theorem C86_revert_violated (block : Block) (n : Node) : (Revert E block n).1 = .panic := rfl

/-- The hypotheses are met by a block that empties and prunes a contract. -/
example (E : Env) (key : BArr 32) (sig : BArr 64) (a b c : Addr) (hab : a ≠ b) (hac : a ≠ c) (hbc : b ≠ c) (hash : Hash32) :
    ∃ n n' block body, Reach E n ∧ block.body = some body ∧ Push E block n = (.ok (), n') ∧ body.txs ≠ [] ∧ body.pruned ≠ [] :=
  ⟨_, _, _, _, .put _ _ .new, rfl, Prod.ext (prune_witness E key sig a b c hab hac hbc hash).1 rfl, by simp, by simp⟩

end Nimiq.Accounts
