import Verif.Accounts.Single
/-!
# C56: failed pushes
-/
namespace Nimiq.Accounts
open Beserial Beserial.Spec Wire Spec

variable {E : Env} {n n' : Node}

theorem senderStep_fail {height : UInt32} {tx : Tx} {m : AMap} (h : ¬ SenderOk E height m tx) :
    (senderStep E height tx m).1 ≠ .ok () ∧ (senderStep E height tx m).2 = m := by
  have h1 : (senderStep E height tx m).1 ≠ .ok () := by
    intro h2
    exact h (senderStep_iff.mp (Prod.ext h2 rfl)).1
  refine ⟨h1, ?_⟩
  unfold senderStep at h1 ⊢
  rw [pushTx_map] at h1 ⊢
  split
  · rfl
  · rename_i hc
    rw [if_neg hc] at h1
    cases hop : applyOutgoing E (m (tx.content E.H).sender) tx height with
    | ok x => rw [hop] at h1; exact absurd rfl h1
    | err e => rfl
    | panic => rfl

theorem senders_fail {height : UInt32} {tx : Tx} {post : List Tx} : ∀ {pre : List Tx} {m : AMap},
    (∀ p t q, pre = p ++ t :: q → SenderOk E height (afterSenders E.H p m) t) →
    ¬ SenderOk E height (afterSenders E.H pre m) tx →
    (forTxs (pre ++ tx :: post) (senderStep E height) m).1 ≠ .ok () ∧
    (forTxs (pre ++ tx :: post) (senderStep E height) m).2 = afterSenders E.H pre m := by
  intro pre
  induction pre with
  | nil =>
    intro m _ h2
    have e0 : afterSenders E.H [] m = m := by funext a; simp [afterSenders, sentBy]
    rw [e0] at h2 ⊢
    obtain ⟨f1, f2⟩ := senderStep_fail h2
    rw [List.nil_append, forTxs_cons]
    rcases hs : senderStep E height tx m with ⟨o, m1⟩
    rw [hs] at f1 f2
    cases o with
    | ok u => exact absurd rfl f1
    | err e => exact ⟨(fun h => nomatch h), f2⟩
    | panic => exact ⟨(fun h => nomatch h), f2⟩
  | cons t pre ih =>
    intro m h1 h2
    have e0 : afterSenders E.H [] m = m := by funext a; simp [afterSenders, sentBy]
    have s1 : SenderOk E height m t := by have := h1 [] t pre rfl; rwa [e0] at this
    rw [List.cons_append, forTxs_cons, senderStep_iff.mpr ⟨s1, rfl⟩]
    have := ih (m := afterSenders E.H [t] m) (fun p u q he => by
      rw [afterSenders_append]; exact h1 (t :: p) u q (by rw [he]; rfl)) (by rw [afterSenders_append]; exact h2)
    rw [afterSenders_append] at this
    exact this

/-- What a push leaves behind that fails in the debit of a transaction. -/
theorem push_fail_sender {block : Block} {body : Body} {m : AMap} {pre post : List Tx} {tx : Tx}
    (hb : block.body = some body) (he : body.txs = pre ++ tx :: post)
    (h1 : ∀ p t q, pre = p ++ t :: q → SenderOk E block.height (afterSenders E.H p m) t)
    (h2 : ¬ SenderOk E block.height (afterSenders E.H pre m) tx) :
    (push E mapLedger block m).1 ≠ .ok () ∧ (push E mapLedger block m).2 = afterSenders E.H pre m := by
  obtain ⟨f1, f2⟩ := senders_fail (post := post) h1 h2
  unfold push
  rw [hb]
  simp only []
  rw [M.bind_eq, pushSenders_eq, he]
  rcases hs : forTxs (pre ++ tx :: post) (senderStep E block.height) m with ⟨o, m1⟩
  rw [hs] at f1 f2
  cases o with
  | ok u => exact absurd rfl f1
  | err e => exact ⟨(fun h => nomatch h), f2⟩
  | panic => exact ⟨(fun h => nomatch h), f2⟩

/-- C56 (partial): if already the first transaction cannot be debited, Push fails and leaves all accounts as they were. -/
theorem C56_first_tx_partial (hn : Reach E n) (block : Block) (body : Body) (hb : block.body = some body)
    (tx : Tx) (post : List Tx) (he : body.txs = tx :: post)
    (h : ((tx.getSender E.H).2 ≠ 0xFF ∧ (tx.getSender E.H).2 ≠ (accountOf n (tx.getSender E.H).1).type) ∨
      ∀ x, applyOutgoing E (accountOf n (tx.getSender E.H).1) tx block.height ≠ .ok x) :
    (Push E block n).1 ≠ .ok () ∧ accountOf (Push E block n).2 = accountOf n := by
  have q := hn.push_eq block
  have e0 : afterSenders E.H [] (accountOf n) = accountOf n := by funext a; simp [afterSenders, sentBy]
  have := push_fail_sender (E := E) (m := accountOf n) (pre := []) (tx := tx) (post := post) hb he
    (fun p t q h => by simp at h) (by
      rw [e0]
      rintro ⟨h1, x, h2⟩
      rcases h with h | h
      · rcases h1 with h1 | h1
        · exact h.1 h1
        · exact h.2 h1
      · exact h x h2)
  rw [q.1, q.2]
  rw [e0] at this
  exact this

/-- C56 (partial): a block without transactions either succeeds or changes no account. -/
theorem C56_no_txs_partial (hn : Reach E n) (block : Block) (body : Body) (hb : block.body = some body)
    (he : body.txs = []) (h : (Push E block n).1 ≠ .ok ()) : accountOf (Push E block n).2 = accountOf n := by
  have q := hn.push_eq block
  rw [q.1] at h
  rw [q.2]
  generalize accountOf n = m at *
  unfold push at h ⊢
  rw [hb] at h ⊢
  simp only [] at h ⊢
  rw [M.bind_eq, pushSenders_eq, he, forTxs_nil] at h ⊢
  simp only [] at h ⊢
  rw [M.bind_eq, pushRecipients_eq, he, forTxs_nil] at h ⊢
  simp only [] at h ⊢
  rw [M.bind_eq, createContracts_eq, he, forTxs_nil] at h ⊢
  simp only [] at h ⊢
  rw [M.bind_eq] at h ⊢
  have hp : (pruneAccounts E mapLedger body m).2 = m := by
    unfold pruneAccounts
    rw [M.bind_eq, he]
    have : pruneLoop E mapLedger [] (pruneMap body.pruned) m = (.ok (pruneMap body.pruned), m) := rfl
    rw [this]
    simp only []
    split <;> rfl
  rcases hpr : pruneAccounts E mapLedger body m with ⟨o, m1⟩
  rw [hpr] at hp h
  cases hp
  cases o with
  | err e => rfl
  | panic => rfl
  | ok u =>
    simp only [] at h ⊢
    rw [inherents_map] at h ⊢
    split
    · rfl
    · split
      · rename_i h1 h2
        rw [if_neg h1, if_pos h2] at h
        exact absurd rfl h
      · rfl

/-- C56 is false: if the second of two transactions overspends, Push fails with an error, but the sender of the first has lost
its money (and nobody has got it). -/
theorem C56_violated (hn : Reach E n) (a b c d : Addr) (v : UInt64) (hv : v ≠ 0) (height : UInt32)
    (ha : accountOf n a = .basic ⟨v⟩) (hd : accountOf n d = .basic ⟨0⟩) (had : a ≠ d) (hab : a ≠ b)
    (hash : Hash32) (proof : Bytes) :
    let block : Block := ⟨height, hash, some ⟨c, [.extended ⟨[], a, 0, b, 0, v, 0, 1, 1, 0, proof⟩,
      .extended ⟨[], d, 0, b, 0, 1, 0, 1, 1, 0, proof⟩], []⟩⟩
    (∃ e, (Push E block n).1 = .err e) ∧
    accountOf (Push E block n).2 a = .basic ⟨0⟩ ∧ accountOf (Push E block n).2 a ≠ accountOf n a ∧
    accountOf (Push E block n).2 b = accountOf n b ∧
    total (accountOf (Push E block n).2) + v.toNat = total (accountOf n) := by
  intro block
  have q := hn.push_eq block
  let t1 : Tx := .extended ⟨[], a, 0, b, 0, v, 0, 1, 1, 0, proof⟩
  let t2 : Tx := .extended ⟨[], d, 0, b, 0, 1, 0, 1, 1, 0, proof⟩
  have hS : senderStep E height t1 (accountOf n) = (.ok (), AMap.set (accountOf n) a (.basic ⟨0⟩)) := by
    unfold senderStep
    refine pushTx_of_ok (.inr ?_) ?_
    · show (0 : UInt8) = (accountOf n a).type
      rw [ha]; rfl
    · show applyOutgoing E (accountOf n a) t1 height = _
      rw [ha, basic_out (d := v) (by show v + 0 = v; simp) (UInt64.le_refl v)]
      simp
  have hS2 : senderStep E height t2 (AMap.set (accountOf n) a (.basic ⟨0⟩)) =
      (.err (.overspend 0 1), AMap.set (accountOf n) a (.basic ⟨0⟩)) := by
    unfold senderStep
    rw [pushTx_map]
    show (if (0 : UInt8) ≠ 0xFF ∧ (0 : UInt8) ≠ (AMap.set (accountOf n) a (.basic ⟨0⟩) d).type then _ else
      match applyOutgoing E (AMap.set (accountOf n) a (.basic ⟨0⟩) d) t2 height with
      | .ok x => _ | .err e => _ | .panic => _) = _
    rw [AMap.set_ne _ _ (Ne.symm had), hd, if_neg (by rintro ⟨_, h⟩; exact h rfl)]
    rfl
  have hp : push E mapLedger block (accountOf n) = (.err (.overspend 0 1), AMap.set (accountOf n) a (.basic ⟨0⟩)) := by
    unfold push
    show (pushSenders E mapLedger height ⟨c, [t1, t2], []⟩ >>= _) (accountOf n) = _
    rw [M.bind_eq, pushSenders_eq, forTxs_cons, hS]
    simp only []
    rw [forTxs_cons, hS2]
  rw [hp] at q
  dsimp only at q
  obtain ⟨q1, q2⟩ := q
  refine ⟨⟨_, q1⟩, ?_, ?_, ?_, ?_⟩
  · rw [q2, AMap.set_same]
  · rw [q2, AMap.set_same, ha]
    intro h
    cases h
    exact hv rfl
  · rw [q2, AMap.set_ne _ _ (Ne.symm hab)]
  · rw [q2]
    have := total_set (accountOf n) a (.basic ⟨0⟩)
    rw [ha] at this
    exact this

example (E : Env) (a d : Addr) (had : a ≠ d) : ∃ n, Reach E n ∧ accountOf n a = .basic ⟨7⟩ ∧ (7 : UInt64) ≠ 0 ∧
    accountOf n d = .basic ⟨0⟩ :=
  ⟨(Node.putAccount E.H a (some (.basic ⟨7⟩)) newNode).2, .put _ _ .new, by rw [accountOf_put .new, AMap.set_same], by decide,
    by rw [accountOf_put .new, AMap.set_ne _ _ (Ne.symm had), accountOf_new]⟩

end Nimiq.Accounts
