import Verif.Accounts.Supply
/-!
# When each phase of Push succeeds

`Prune.lean` and `Steps.lean` say what a successful phase does; here the conditions for success are made exact, so that the
whole of Push is characterised: `push_iff`.
-/
namespace Nimiq.Accounts
open Beserial Wire Spec

variable {E : Env}

/-! ## Senders -/

/-- The sender step of `tx` succeeds on the accounts `m`. -/
def SenderOk (E : Env) (height : UInt32) (m : AMap) (tx : Tx) : Prop :=
  ((tx.getSender E.H).2 = 0xFF ∨ (tx.getSender E.H).2 = (m (tx.getSender E.H).1).type) ∧
  ∃ x, applyOutgoing E (m (tx.getSender E.H).1) tx height = .ok x

theorem pushTx_of_ok {a : Addr} {ty : UInt8} {tx : Tx} {h : UInt32} {op : AccountOp} {m : AMap} {x : Account}
    (h1 : ty = 0xFF ∨ ty = (m a).type) (h2 : op (m a) tx h = .ok x) :
    pushTx mapLedger a ty tx h op m = (.ok (), m.set a x) := by
  rw [pushTx_map, if_neg, h2]
  rintro ⟨h3, h4⟩
  rcases h1 with h1 | h1
  · exact h3 h1
  · exact h4 h1

theorem senderStep_iff {height : UInt32} {tx : Tx} {m m' : AMap} : senderStep E height tx m = (.ok (), m') ↔
    SenderOk E height m tx ∧ m' = afterSenders E.H [tx] m := by
  have hone : ∀ x, applyOutgoing E (m (tx.getSender E.H).1) tx height = .ok x →
      m.set (tx.getSender E.H).1 x = afterSenders E.H [tx] m := by
    intro x hx
    funext a
    by_cases ha : (tx.getSender E.H).1 = a
    · subst ha
      rw [AMap.set_same, applyOutgoing_ok hx]
      simp [afterSenders, sentBy]
    · rw [AMap.set_ne _ _ (Ne.symm ha)]
      simp [afterSenders, sentBy, ha]
  constructor
  · intro h
    obtain ⟨x, e1, e2, e3⟩ := pushTx_ok h
    rw [content_sender] at e1 e2 e3
    rw [content_senderType] at e3
    exact ⟨⟨e3, x, e1⟩, by rw [e2, hone x e1]⟩
  · rintro ⟨⟨h1, x, h2⟩, rfl⟩
    unfold senderStep
    rw [content_sender, content_senderType, pushTx_of_ok h1 h2, hone x h2]

theorem afterSenders_append (H : Bytes → Hash32) (l1 l2 : List Tx) (m : AMap) :
    afterSenders H l2 (afterSenders H l1 m) = afterSenders H (l1 ++ l2) m := by
  funext a
  simp only [afterSenders, sentBy, withBalance_withBalance, balance_withBalance, debit_withBalance, List.filter_append,
    List.map_append, List.sum_append]
  congr 1
  grind

/-- `pushSenders` succeeds iff each transaction's step does after those before it. -/
theorem senders_iff {height : UInt32} : ∀ {txs : List Tx} {m m' : AMap},
    forTxs txs (senderStep E height) m = (.ok (), m') ↔
      (∀ pre tx post, txs = pre ++ tx :: post → SenderOk E height (afterSenders E.H pre m) tx) ∧
      m' = afterSenders E.H txs m := by
  intro txs
  induction txs with
  | nil =>
    intro m m'
    rw [forTxs_nil]
    have : afterSenders E.H [] m = m := by funext a; simp [afterSenders, sentBy]
    rw [this]
    constructor
    · intro h; cases h; exact ⟨fun pre tx post h => by simp at h, rfl⟩
    · rintro ⟨_, rfl⟩; rfl
  | cons tx txs ih =>
    intro m m'
    have h0 : afterSenders E.H [] m = m := by funext a; simp [afterSenders, sentBy]
    constructor
    · intro h
      obtain ⟨m1, h1, h2⟩ := forTxs_cons_ok h
      obtain ⟨s1, rfl⟩ := senderStep_iff.mp h1
      obtain ⟨s2, rfl⟩ := ih.mp h2
      refine ⟨?_, by rw [afterSenders_append]; rfl⟩
      intro pre t post he
      cases pre with
      | nil =>
        rw [List.nil_append] at he; cases he
        rw [h0]; exact s1
      | cons p pre =>
        rw [List.cons_append] at he; cases he
        have := s2 pre t post rfl
        rwa [afterSenders_append] at this
    · rintro ⟨h1, rfl⟩
      have s1 : SenderOk E height m tx := by have := h1 [] tx txs rfl; rwa [h0] at this
      rw [forTxs_cons, senderStep_iff.mpr ⟨s1, rfl⟩]
      show forTxs txs (senderStep E height) (afterSenders E.H [tx] m) = _
      apply ih.mpr
      refine ⟨?_, by rw [afterSenders_append]; rfl⟩
      intro pre t post he
      have := h1 (tx :: pre) t post (by rw [he]; rfl)
      rw [afterSenders_append]
      exact this

/-! ## Recipients -/

/-- The recipient step of `tx` succeeds on the accounts `m`. -/
def RecipientOk (m : AMap) (tx : Tx) : Prop :=
  (m tx.getRecipient.1).type = 0 ∧ (creates tx = true ∨ tx.getRecipient.2 = 0 ∨ tx.getRecipient.2 = 0xFF)

theorem recipientStep_iff {height : UInt32} {tx : Tx} {m m' : AMap} : recipientStep E height tx m = (.ok (), m') ↔
    RecipientOk m tx ∧ m' = afterRecipients [tx] m := by
  have hone : ∀ x, applyIncoming (m tx.getRecipient.1) tx height = .ok x →
      m.set tx.getRecipient.1 x = afterRecipients [tx] m := by
    intro x hx
    funext a
    by_cases ha : tx.getRecipient.1 = a
    · subst ha
      rw [AMap.set_same, (applyIncoming_ok hx).2]
      simp [afterRecipients, receivedBy]
    · rw [AMap.set_ne _ _ (Ne.symm ha)]
      simp [afterRecipients, receivedBy, ha]
  constructor
  · intro h
    obtain ⟨x, e1, e2, e3⟩ := pushTx_ok h
    rw [content_recipient] at e1 e2 e3
    rw [content_recipientType] at e3
    have ht := (applyIncoming_ok e1).1
    refine ⟨⟨ht, ?_⟩, by rw [e2, hone x e1]⟩
    by_cases hf : (tx.content E.H).flags &&& 0x01 = 0
    · rw [if_pos hf, ht] at e3
      rcases e3 with e3 | e3
      · exact .inr (.inr e3)
      · exact .inr (.inl e3)
    · exact .inl ((creates_iff E.H tx).mpr hf)
  · rintro ⟨⟨h1, h2⟩, rfl⟩
    obtain ⟨x, hx⟩ : ∃ x, applyIncoming (m tx.getRecipient.1) tx height = .ok x := by
      cases hm : m tx.getRecipient.1 with
      | basic a => exact ⟨_, rfl⟩
      | vesting a => rw [hm] at h1; cases h1
      | htlc a => rw [hm] at h1; cases h1
    unfold recipientStep
    rw [content_recipient, content_recipientType]
    rw [pushTx_of_ok _ hx, hone x hx]
    by_cases hf : (tx.content E.H).flags &&& 0x01 = 0
    · rw [if_pos hf, h1]
      rcases h2 with h2 | h2 | h2
      · exact absurd hf ((creates_iff E.H tx).mp h2)
      · exact .inr h2
      · exact .inl h2
    · rw [if_neg hf]; exact .inl rfl

theorem afterRecipients_append (l1 l2 : List Tx) (m : AMap) :
    afterRecipients l2 (afterRecipients l1 m) = afterRecipients (l1 ++ l2) m := by
  funext a
  simp only [afterRecipients, receivedBy, withBalance_withBalance, balance_withBalance, List.filter_append,
    List.map_append, List.sum_append]
  congr 1
  grind

theorem type_afterSenders (H : Bytes → Hash32) (txs : List Tx) (m : AMap) (a : Addr) :
    (afterSenders H txs m a).type = (m a).type := by simp [afterSenders]

theorem type_afterRecipients (txs : List Tx) (m : AMap) (a : Addr) :
    (afterRecipients txs m a).type = (m a).type := by simp [afterRecipients]

theorem recipients_iff {height : UInt32} : ∀ {txs : List Tx} {m m' : AMap},
    forTxs txs (recipientStep E height) m = (.ok (), m') ↔
      (∀ tx ∈ txs, RecipientOk m tx) ∧ m' = afterRecipients txs m := by
  intro txs
  induction txs with
  | nil =>
    intro m m'
    rw [forTxs_nil]
    have : afterRecipients [] m = m := by funext a; simp [afterRecipients, receivedBy]
    rw [this]
    constructor
    · intro h; cases h; exact ⟨by simp, rfl⟩
    · rintro ⟨_, rfl⟩; rfl
  | cons tx txs ih =>
    intro m m'
    have hty : ∀ t, RecipientOk (afterRecipients [tx] m) t ↔ RecipientOk m t := by
      intro t; unfold RecipientOk; rw [type_afterRecipients]
    constructor
    · intro h
      obtain ⟨m1, h1, h2⟩ := forTxs_cons_ok h
      obtain ⟨s1, rfl⟩ := recipientStep_iff.mp h1
      obtain ⟨s2, rfl⟩ := ih.mp h2
      refine ⟨?_, by rw [afterRecipients_append]; rfl⟩
      intro t ht
      rcases List.mem_cons.mp ht with rfl | ht
      · exact s1
      · exact (hty t).mp (s2 t ht)
    · rintro ⟨h1, rfl⟩
      rw [forTxs_cons, recipientStep_iff.mpr ⟨h1 tx (List.mem_cons_self ..), rfl⟩]
      show forTxs txs (recipientStep E height) (afterRecipients [tx] m) = _
      apply ih.mpr
      refine ⟨fun t ht => (hty t).mpr (h1 t (List.mem_cons_of_mem _ ht)), by rw [afterRecipients_append]; rfl⟩

/-! ## Contract creation -/

theorem contractOf_total {tx : Tx} {h : UInt32} {b b' : UInt64} {x : Account} (e : contractOf tx h b = .ok x) :
    contractOf tx h b' = .ok (withBalance x b') := by
  unfold contractOf at e ⊢
  split at e
  · rename_i h1
    rw [if_pos h1]
    simp only [initVesting, Out.bind_eq_ok] at e ⊢
    obtain ⟨t, ht, e⟩ := e
    refine ⟨t, ht, ?_⟩
    split at e
    · rename_i h2
      rw [if_pos h2]
      simp only [Out.bind_eq_ok] at e ⊢
      obtain ⟨p, hp, e⟩ := e
      cases e; exact ⟨p, hp, rfl⟩
    · rename_i h2
      rw [if_neg h2]
      split at e
      · rename_i h3
        rw [if_pos h3]
        simp only [Out.bind_eq_ok] at e ⊢
        obtain ⟨p, hp, e⟩ := e
        cases e; exact ⟨p, hp, rfl⟩
      · rename_i h3
        rw [if_neg h3]
        split at e
        · rename_i h4
          rw [if_pos h4]
          simp only [Out.bind_eq_ok] at e ⊢
          obtain ⟨p, hp, e⟩ := e
          cases e; exact ⟨p, hp, rfl⟩
        · cases e
  · rename_i h1
    rw [if_neg h1]
    split at e
    · rename_i h2
      rw [if_pos h2]
      simp only [initHTLC, Out.bind_eq_ok] at e ⊢
      obtain ⟨t, ht, p, hp, e⟩ := e
      refine ⟨t, ht, p, hp, ?_⟩
      split at e
      · cases e
      · rename_i h3
        cases e
        rw [if_neg h3]; rfl
    · cases e

/-- The creation data of `tx` is acceptable. -/
def CreateOk (height : UInt32) (tx : Tx) : Prop := creates tx = true → ∃ x, contractOf tx height 0 = .ok x

theorem creates_phase_iff {height : UInt32} : ∀ {txs : List Tx} {m m' : AMap},
    forTxs txs (createStep E height) m = (.ok (), m') ↔
      (∀ tx ∈ txs, CreateOk height tx) ∧ m' = afterCreate height txs m := by
  intro txs m m'
  constructor
  · intro h
    obtain ⟨h1, h2⟩ := creates_ok h
    refine ⟨fun tx ht hc => ?_, h1⟩
    obtain ⟨x, hx⟩ := h2 tx ht hc
    exact ⟨_, contractOf_total hx⟩
  · rintro ⟨h1, rfl⟩
    have key : ∀ (txs : List Tx) (m : AMap), (∀ tx ∈ txs, CreateOk height tx) →
        ∃ m', forTxs txs (createStep E height) m = (.ok (), m') := by
      intro txs
      induction txs with
      | nil => intro m _; exact ⟨m, rfl⟩
      | cons tx txs ih =>
        intro m h
        rw [forTxs_cons, createStep_map]
        have hrec := fun m => ih m fun t ht => h t (List.mem_cons_of_mem _ ht)
        by_cases hc : creates tx = true
        · obtain ⟨x, hx⟩ := h tx (List.mem_cons_self ..) hc
          rw [if_pos hc, contractOf_total hx]
          exact hrec _
        · rw [if_neg hc]
          exact hrec _
    obtain ⟨m', hm'⟩ := key txs m h1
    rw [hm', (creates_ok hm').1]

/-! ## Pruning -/

/-- The prune list is exactly right for the accounts `m`: it quotes every emptied contract that sent something, as it is,
and no other address. -/
def PruneOk (H : Bytes → Hash32) (body : Body) (m : AMap) : Prop :=
  (∀ a, Sends H body.txs a → Dead (m a) → quoted body.pruned a = some (some (m a))) ∧
  (∀ a, quoted body.pruned a ≠ none → Sends H body.txs a ∧ Dead (m a))

theorem pruneLoop_of_ok : ∀ {txs : List Tx} {pm : PruneMap} {m : AMap},
    (∀ a, Sends E.H txs a → Dead (m a) → pm.get a = some (some (m a))) →
    ∃ pm' m', pruneLoop E mapLedger txs pm m = (.ok pm', m') := by
  intro txs
  induction txs with
  | nil => intro pm m _; exact ⟨pm, m, rfl⟩
  | cons tx txs ih =>
    intro pm m h
    rw [pruneLoop_cons]
    by_cases hd : Dead (m (tx.getSender E.H).1)
    · rw [if_neg (fun h => h hd), h _ ⟨tx, List.mem_cons_self .., rfl⟩ hd]
      simp only [if_true]
      apply ih
      intro a hs hda
      by_cases ha : a = (tx.getSender E.H).1
      · subst ha; rw [AMap.set_same] at hda; exact absurd hda dead_initial
      · rw [AMap.set_ne _ _ ha] at hda ⊢
        rw [PruneMap.get_del, if_neg ha]
        obtain ⟨t, ht, hta⟩ := hs
        exact h a ⟨t, List.mem_cons_of_mem _ ht, hta⟩ hda
    · rw [if_pos hd]
      exact ih fun a ⟨t, ht, hta⟩ hda => h a ⟨t, List.mem_cons_of_mem _ ht, hta⟩ hda

theorem prune_iff {body : Body} {m m' : AMap} : pruneAccounts E mapLedger body m = (.ok (), m') ↔
    PruneOk E.H body m ∧ m' = afterPrune E.H body.txs m := by
  constructor
  · intro h
    obtain ⟨h1, h2, h3⟩ := prune_ok h
    exact ⟨⟨h2, h3⟩, h1⟩
  · rintro ⟨⟨h1, h2⟩, rfl⟩
    obtain ⟨pm', m', hl⟩ := pruneLoop_of_ok (E := E) (txs := body.txs) (pm := pruneMap body.pruned) (m := m)
      (fun a ha hd => by rw [pruneMap_get]; exact h1 a ha hd)
    obtain ⟨i1, i2, i3⟩ := pruneLoop_ok hl
    unfold pruneAccounts
    rw [M.bind_eq, hl]
    simp only []
    have hnil : pm' = [] := by
      apply PruneMap.eq_nil
      intro a
      rw [i3]
      split
      · rfl
      · rename_i hc
        rw [pruneMap_get]
        cases hq : quoted body.pruned a with
        | none => rfl
        | some x => exact absurd (h2 a (by rw [hq]; simp)) hc
    rw [dif_neg (by rw [hnil]; simp), i1]
    rfl

theorem pruneLoop_ne_panic : ∀ {txs : List Tx} {pm : PruneMap} {m : AMap},
    (pruneLoop E mapLedger txs pm m).1 ≠ .panic := by
  intro txs
  induction txs with
  | nil => intro pm m h; cases h
  | cons tx txs ih =>
    intro pm m
    rw [pruneLoop_cons]
    split
    · exact ih
    · cases pm.get (tx.getSender E.H).1 with
      | none => intro h; cases h
      | some x =>
        simp only []
        split
        · exact ih
        · intro h; cases h

theorem prune_ne_panic {body : Body} {m : AMap} : (pruneAccounts E mapLedger body m).1 ≠ .panic := by
  unfold pruneAccounts
  rw [M.bind_eq]
  have h := pruneLoop_ne_panic (E := E) (txs := body.txs) (pm := pruneMap body.pruned) (m := m)
  rcases hl : pruneLoop E mapLedger body.txs (pruneMap body.pruned) m with ⟨o, m1⟩
  rw [hl] at h
  cases o with
  | ok pm =>
    simp only []
    split
    · intro h; cases h
    · intro h; cases h
  | err e => intro h; cases h
  | panic => exact absurd rfl h

/-! ## Everything -/

/-- Push succeeds on accounts `m` iff each of these holds; then the result is as stated. -/
theorem push_iff {block : Block} {m m' : AMap} : push E mapLedger block m = (.ok (), m') ↔
    ∃ body, block.body = some body ∧ block.height ≠ 0 ∧
      (∀ pre tx post, body.txs = pre ++ tx :: post → SenderOk E block.height (afterSenders E.H pre m) tx) ∧
      (∀ tx ∈ body.txs, RecipientOk m tx) ∧
      (∀ tx ∈ body.txs, CreateOk block.height tx) ∧
      PruneOk E.H body (afterTransfers E block body m) ∧
      (afterPrune E.H body.txs (afterTransfers E block body m) body.minerAddr).type = 0 ∧
      m' = afterInherents block.height body (afterPrune E.H body.txs (afterTransfers E block body m)) := by
  have hr : ∀ txs t, RecipientOk (afterSenders E.H txs m) t ↔ RecipientOk m t := by
    intro txs t; unfold RecipientOk; rw [type_afterSenders]
  constructor
  · intro h
    obtain ⟨body, m1, m2, m3, m4, hb, h1, h2, h3, h4, h5⟩ := push_ok h
    rw [pushSenders_eq] at h1
    rw [pushRecipients_eq] at h2
    rw [createContracts_eq] at h3
    obtain ⟨s1, rfl⟩ := senders_iff.mp h1
    obtain ⟨s2, rfl⟩ := recipients_iff.mp h2
    obtain ⟨s3, rfl⟩ := creates_phase_iff.mp h3
    obtain ⟨s4, rfl⟩ := prune_iff.mp h4
    obtain ⟨s5, s6, rfl⟩ := inherents_ok h5
    exact ⟨body, hb, s5, s1, fun t ht => (hr _ t).mp (s2 t ht), s3, s4, s6, rfl⟩
  · rintro ⟨body, hb, h0, s1, s2, s3, s4, s5, rfl⟩
    unfold push
    rw [hb]
    simp only []
    rw [M.bind_ok]
    refine ⟨(), afterSenders E.H body.txs m, by rw [pushSenders_eq]; exact senders_iff.mpr ⟨s1, rfl⟩, ?_⟩
    rw [M.bind_ok]
    refine ⟨(), afterRecipients body.txs (afterSenders E.H body.txs m), by
      rw [pushRecipients_eq]; exact recipients_iff.mpr ⟨fun t ht => (hr _ t).mpr (s2 t ht), rfl⟩, ?_⟩
    rw [M.bind_ok]
    refine ⟨(), afterTransfers E block body m, by
      rw [createContracts_eq]; exact creates_phase_iff.mpr ⟨s3, rfl⟩, ?_⟩
    rw [M.bind_ok]
    refine ⟨(), afterPrune E.H body.txs (afterTransfers E block body m), prune_iff.mpr ⟨s4, rfl⟩, ?_⟩
    rw [inherents_map, if_neg h0, if_pos s5]
    rfl

end Nimiq.Accounts
