import Verif.Accounts.Abstract
/-!
# What each phase of Push does to the map of accounts
-/
namespace Nimiq.Accounts
open Beserial Wire

/-! ## Inversion of stateful calls -/

section
variable {σ α β : Type}

theorem M.bind_ok {x : M σ α} {f : α → M σ β} {s s' : σ} {b : β} :
    (x >>= f) s = (.ok b, s') ↔ ∃ a s1, x s = (.ok a, s1) ∧ f a s1 = (.ok b, s') := by
  show M.bind x f s = _ ↔ _
  unfold M.bind
  rcases hx : x s with ⟨o, s1⟩
  cases o with
  | ok a =>
    constructor
    · intro h; exact ⟨a, s1, rfl, h⟩
    · rintro ⟨a', s1', h1, h2⟩; cases h1; exact h2
  | err e =>
    constructor
    · intro h; cases h
    · rintro ⟨a', s1', h1, h2⟩; cases h1
  | panic =>
    constructor
    · intro h; cases h
    · rintro ⟨a', s1', h1, h2⟩; cases h1

theorem M.bind_eq (x : M σ α) (f : α → M σ β) (s : σ) : (x >>= f) s =
    match x s with
    | (.ok a, s) => f a s
    | (.err e, s) => (.err e, s)
    | (.panic, s) => (.panic, s) := rfl

theorem M.pure_eq (a : α) (s : σ) : (Pure.pure a : M σ α) s = (.ok a, s) := rfl
theorem M.lift_eq (a : Out α) (s : σ) : (M.lift a : M σ α) s = (a, s) := rfl
theorem M.throw_eq (e : Err) (s : σ) : (M.throw e : M σ α) s = (.err e, s) := rfl
theorem M.panic_eq (s : σ) : (M.panic : M σ α) s = (.panic, s) := rfl

end

theorem mapLedger_get (a : Addr) (m : AMap) : mapLedger.getAccount a m = (.ok (m a), m) := rfl
theorem mapLedger_put (a : Addr) (x : Option Account) (m : AMap) :
    mapLedger.putAccount a x m = (.ok (), m.set a (x.getD initialAccount)) := rfl

/-- `pushTx` on a map, in full. -/
theorem pushTx_map (a : Addr) (ty : UInt8) (tx : Tx) (h : UInt32) (op : AccountOp) (m : AMap) :
    pushTx mapLedger a ty tx h op m =
      if ty ≠ 0xFF ∧ ty ≠ (m a).type then (.err (.typeMismatch ty (m a).type), m)
      else match op (m a) tx h with
        | .ok x => (.ok (), m.set a x)
        | .err e => (.err e, m)
        | .panic => (.panic, m) := by
  unfold pushTx
  rw [M.bind_eq, mapLedger_get]
  simp only []
  by_cases hc : ty ≠ 0xFF ∧ ty ≠ (m a).type
  · rw [if_pos hc, if_pos hc]; rfl
  · rw [if_neg hc, if_neg hc, M.bind_eq, M.lift_eq]
    cases op (m a) tx h <;> rfl

theorem pushTx_ok {a : Addr} {ty : UInt8} {tx : Tx} {h : UInt32} {op : AccountOp} {m m' : AMap} {u : Unit}
    (e : pushTx mapLedger a ty tx h op m = (.ok u, m')) :
    ∃ x, op (m a) tx h = .ok x ∧ m' = m.set a x ∧ (ty = 0xFF ∨ ty = (m a).type) := by
  rw [pushTx_map] at e
  split at e
  · cases e
  · rename_i hc
    cases ho : op (m a) tx h with
    | ok x =>
      rw [ho] at e; cases e
      refine ⟨x, rfl, rfl, ?_⟩
      by_cases h1 : ty = 0xFF
      · exact .inl h1
      · refine .inr (Classical.byContradiction fun h2 => hc ⟨h1, h2⟩)
    | err x => rw [ho] at e; cases e
    | panic => rw [ho] at e; cases e

/-- `pushTx` writes nothing unless it succeeds, and then only the account at its address. -/
theorem pushTx_frame (a : Addr) (ty : UInt8) (tx : Tx) (h : UInt32) (op : AccountOp) (m : AMap) (b : Addr) (hb : b ≠ a) :
    (pushTx mapLedger a ty tx h op m).2 b = m b := by
  rw [pushTx_map]
  split
  · rfl
  · cases op (m a) tx h with
    | ok x => exact AMap.set_ne _ _ hb
    | err e => rfl
    | panic => rfl

/-! ## Accounts with another balance -/

/-- The same account with another balance. -/
def withBalance : Account → UInt64 → Account
  | .basic _, v => .basic ⟨v⟩
  | .vesting a, v => .vesting { a with value := v }
  | .htlc a, v => .htlc { a with value := v }

@[simp] theorem balance_withBalance (a : Account) (v : UInt64) : balance (withBalance a v) = v := by cases a <;> rfl
@[simp] theorem type_withBalance (a : Account) (v : UInt64) : (withBalance a v).type = a.type := by cases a <;> rfl
@[simp] theorem withBalance_withBalance (a : Account) (v w : UInt64) :
    withBalance (withBalance a v) w = withBalance a w := by cases a <;> rfl
@[simp] theorem withBalance_self (a : Account) : withBalance a (balance a) = a := by cases a <;> rfl
theorem withBalance_eq_self {a : Account} {v : UInt64} (h : v = balance a) : withBalance a v = a := by subst h; simp

/-- What a transaction takes from its sender's account: contracts do not pay the fee. -/
def debit : Account → Tx → UInt64
  | .basic _, tx => tx.amount.1 + tx.amount.2
  | .vesting _, tx => tx.amount.1
  | .htlc _, tx => tx.amount.1

@[simp] theorem debit_withBalance (a : Account) (v : UInt64) : debit (withBalance a v) = debit a := by
  funext tx; cases a <;> rfl

theorem asExtendedPtr_ok {tx : Tx} {t : ExtendedTx} (h : asExtendedPtr tx = .ok t) : tx = .extended t := by
  cases tx with
  | basic b => cases h
  | extended b => cases h; rfl

/-- A successful debit in full: the new account is the old one with the debit subtracted. -/
theorem applyOutgoing_ok {E : Env} {acc x : Account} {tx : Tx} {h : UInt32} (e : applyOutgoing E acc tx h = .ok x) :
    x = withBalance acc (balance acc - debit acc tx) := by
  cases acc with
  | basic a =>
    simp only [applyOutgoing, basicOutgoing] at e
    split at e
    · cases e
    · cases e; rfl
  | vesting a =>
    simp only [applyOutgoing, vestingOutgoing, Out.bind_eq_ok] at e
    obtain ⟨t, ht, e⟩ := e
    have := asExtendedPtr_ok ht; subst this
    split at e
    · cases e
    · simp only [Out.bind_eq_ok] at e
      obtain ⟨v, _, s, _, e⟩ := e
      split at e
      · cases e
      · cases e; rfl
  | htlc a =>
    simp only [applyOutgoing, htlcOutgoing, Out.bind_eq_ok] at e
    obtain ⟨t, ht, e⟩ := e
    have := asExtendedPtr_ok ht; subst this
    split at e
    · cases e
    · split at e
      · cases e
      · split at e
        · split at e
          · cases e
          · simp only [Out.bind_eq_ok] at e
            obtain ⟨v, _, e⟩ := e
            split at e
            · cases e
            · simp only [Out.bind_eq_ok] at e
              obtain ⟨s, _, e⟩ := e
              split at e
              · cases e
              · cases e; rfl
        · split at e
          · simp only [Out.bind_eq_ok] at e
            obtain ⟨v, _, s, _, e⟩ := e
            split at e
            · cases e
            · simp only [Out.bind_eq_ok] at e
              obtain ⟨s2, _, e⟩ := e
              split at e
              · cases e
              · cases e; rfl
          · split at e
            · split at e
              · cases e
              · simp only [Out.bind_eq_ok] at e
                obtain ⟨v, _, s, _, e⟩ := e
                split at e
                · cases e
                · cases e; rfl
            · cases e

theorem applyIncoming_ok {acc x : Account} {tx : Tx} {h : UInt32} (e : applyIncoming acc tx h = .ok x) :
    acc.type = 0 ∧ x = withBalance acc (balance acc + tx.amount.1) := by
  cases acc with
  | basic a => cases e; exact ⟨rfl, rfl⟩
  | vesting a => cases e
  | htlc a => cases e

/-! ## Loops -/

theorem forTxs_nil (f : Tx → M AMap Unit) (m : AMap) : forTxs [] f m = (.ok (), m) := rfl

theorem forTxs_cons (tx : Tx) (txs : List Tx) (f : Tx → M AMap Unit) (m : AMap) : forTxs (tx :: txs) f m =
    match f tx m with
    | (.ok _, m) => forTxs txs f m
    | (.err e, m) => (.err e, m)
    | (.panic, m) => (.panic, m) := by
  rw [forTxs, M.bind_eq]
  rcases f tx m with ⟨o, m1⟩
  cases o <;> rfl

theorem forTxs_cons_ok {tx : Tx} {txs : List Tx} {f : Tx → M AMap Unit} {m m' : AMap} {u : Unit}
    (h : forTxs (tx :: txs) f m = (.ok u, m')) : ∃ m1, f tx m = (.ok (), m1) ∧ forTxs txs f m1 = (.ok (), m') := by
  rw [forTxs_cons] at h
  rcases hf : f tx m with ⟨o, m1⟩
  rw [hf] at h
  cases o with
  | ok a => exact ⟨m1, rfl, h⟩
  | err e => cases h
  | panic => cases h

/-- A loop does not touch an address that no step touches. -/
theorem forTxs_frame {f : Tx → M AMap Unit} {b : Addr} : ∀ (txs : List Tx) (m : AMap),
    (∀ tx ∈ txs, ∀ m, (f tx m).2 b = m b) → (forTxs txs f m).2 b = m b := by
  intro txs
  induction txs with
  | nil => intro m _; rfl
  | cons tx txs ih =>
    intro m h
    rw [forTxs_cons]
    have h1 := h tx (List.mem_cons_self ..) m
    rcases hf : f tx m with ⟨o, m1⟩
    rw [hf] at h1
    cases o with
    | ok a => exact (ih m1 fun t ht => h t (List.mem_cons_of_mem _ ht)).trans h1
    | err e => exact h1
    | panic => exact h1

/-! ## The phases -/

/-- The five phases of a successful push. -/
theorem push_ok {E : Env} {block : Block} {m m' : AMap} (h : push E mapLedger block m = (.ok (), m')) :
    ∃ body m1 m2 m3 m4, block.body = some body ∧
      pushSenders E mapLedger block.height body m = (.ok (), m1) ∧
      pushRecipients E mapLedger block.height body m1 = (.ok (), m2) ∧
      createContracts E mapLedger block.height body m2 = (.ok (), m3) ∧
      pruneAccounts E mapLedger body m3 = (.ok (), m4) ∧
      pushInherents mapLedger block.height body m4 = (.ok (), m') := by
  unfold push at h
  cases hb : block.body with
  | none => rw [hb] at h; cases h
  | some body =>
    rw [hb] at h
    simp only [M.bind_ok] at h
    obtain ⟨u1, m1, h1, u2, m2, h2, u3, m3, h3, u4, m4, h4, h5⟩ := h
    exact ⟨body, m1, m2, m3, m4, rfl, h1, h2, h3, h4, h5⟩

/-- The transactions sent by an address. -/
def sentBy (H : Bytes → Hash32) (a : Addr) (txs : List Tx) : List Tx := txs.filter fun tx => (tx.getSender H).1 = a
/-- The transactions received by an address. -/
def receivedBy (a : Addr) (txs : List Tx) : List Tx := txs.filter fun tx => tx.getRecipient.1 = a

theorem content_sender (H : Bytes → Hash32) (tx : Tx) : (tx.content H).sender = (tx.getSender H).1 := by cases tx <;> rfl
theorem content_senderType (H : Bytes → Hash32) (tx : Tx) : (tx.content H).senderType = (tx.getSender H).2 := by
  cases tx <;> rfl
theorem content_recipient (H : Bytes → Hash32) (tx : Tx) : (tx.content H).recipient = tx.getRecipient.1 := by cases tx <;> rfl
theorem content_recipientType (H : Bytes → Hash32) (tx : Tx) : (tx.content H).recipientType = tx.getRecipient.2 := by
  cases tx <;> rfl

/-- One step of `pushSenders`. -/
def senderStep (E : Env) (height : UInt32) (tx : Tx) : M AMap Unit :=
  pushTx mapLedger (tx.content E.H).sender (tx.content E.H).senderType tx height (applyOutgoing E)

theorem pushSenders_eq (E : Env) (height : UInt32) (body : Body) :
    pushSenders E mapLedger height body = forTxs body.txs (senderStep E height) := rfl

/-- After the senders have been debited. -/
def afterSenders (H : Bytes → Hash32) (txs : List Tx) (m : AMap) : AMap := fun a =>
  withBalance (m a) (balance (m a) - ((sentBy H a txs).map (debit (m a))).sum)

theorem senders_ok {E : Env} {height : UInt32} : ∀ {txs : List Tx} {m m' : AMap} {u : Unit},
    forTxs txs (senderStep E height) m = (.ok u, m') → m' = afterSenders E.H txs m := by
  intro txs
  induction txs with
  | nil =>
    intro m m' u h
    rw [forTxs_nil] at h; cases h
    funext a; simp [afterSenders, sentBy]
  | cons tx txs ih =>
    intro m m' u h
    obtain ⟨m1, h1, h2⟩ := forTxs_cons_ok h
    obtain ⟨x, e1, e2, _⟩ := pushTx_ok h1
    have e3 := applyOutgoing_ok e1
    rw [content_sender] at e2 e3
    rw [ih h2]
    funext a
    by_cases ha : (tx.getSender E.H).1 = a
    · subst ha
      simp only [afterSenders, sentBy, e2, AMap.set_same, e3, withBalance_withBalance, balance_withBalance,
        debit_withBalance, decide_true, List.filter_cons_of_pos, List.map_cons, List.sum_cons]
      congr 1
      grind
    · simp only [afterSenders, sentBy, e2, AMap.set_ne _ _ (Ne.symm ha), ha, decide_false, Bool.false_eq_true,
        not_false_eq_true, List.filter_cons_of_neg]

/-- One step of `pushRecipients`. -/
def recipientStep (E : Env) (height : UInt32) (tx : Tx) : M AMap Unit :=
  pushTx mapLedger (tx.content E.H).recipient
    (if (tx.content E.H).flags &&& 0x01 = 0 then (tx.content E.H).recipientType else 0xFF) tx height applyIncoming

theorem pushRecipients_eq (E : Env) (height : UInt32) (body : Body) :
    pushRecipients E mapLedger height body = forTxs body.txs (recipientStep E height) := rfl

/-- After the recipients have been credited. -/
def afterRecipients (txs : List Tx) (m : AMap) : AMap := fun a =>
  withBalance (m a) (balance (m a) + ((receivedBy a txs).map fun tx => tx.amount.1).sum)

theorem recipients_ok {E : Env} {height : UInt32} : ∀ {txs : List Tx} {m m' : AMap} {u : Unit},
    forTxs txs (recipientStep E height) m = (.ok u, m') →
      m' = afterRecipients txs m ∧ ∀ tx ∈ txs, (m tx.getRecipient.1).type = 0 := by
  intro txs
  induction txs with
  | nil =>
    intro m m' u h
    rw [forTxs_nil] at h; cases h
    refine ⟨?_, by simp⟩
    funext a; simp [afterRecipients, receivedBy]
  | cons tx txs ih =>
    intro m m' u h
    obtain ⟨m1, h1, h2⟩ := forTxs_cons_ok h
    obtain ⟨x, e1, e2, _⟩ := pushTx_ok h1
    obtain ⟨e0, e3⟩ := applyIncoming_ok e1
    rw [content_recipient] at e0 e2 e3
    obtain ⟨ih1, ih2⟩ := ih h2
    rw [ih1]
    refine ⟨?_, ?_⟩
    · funext a
      by_cases ha : tx.getRecipient.1 = a
      · subst ha
        simp only [afterRecipients, receivedBy, e2, AMap.set_same, e3, withBalance_withBalance, balance_withBalance,
          decide_true, List.filter_cons_of_pos, List.map_cons, List.sum_cons]
        congr 1
        grind
      · simp only [afterRecipients, receivedBy, e2, AMap.set_ne _ _ (Ne.symm ha), ha, decide_false, Bool.false_eq_true,
          not_false_eq_true, List.filter_cons_of_neg]
    · intro t ht
      rcases List.mem_cons.mp ht with rfl | ht
      · exact e0
      · have := ih2 t ht
        rw [e2] at this
        by_cases hr : t.getRecipient.1 = tx.getRecipient.1
        · rw [hr, AMap.set_same, e3, type_withBalance] at this; rw [hr]; exact this
        · rwa [AMap.set_ne _ _ hr] at this

/-- The contract a creation transaction makes. -/
def contractOf (tx : Tx) (height : UInt32) (bal : UInt64) : Out Account :=
  if tx.getRecipient.2 = 1 then initVesting tx height bal
  else if tx.getRecipient.2 = 2 then initHTLC tx height bal
  else .err (.invalidForRecipient tx.getRecipient.1)

/-- The transaction asks for a contract. -/
def creates (tx : Tx) : Bool := match tx with
  | .basic _ => false
  | .extended t => t.flags &&& 0x01 != 0

theorem creates_iff (H : Bytes → Hash32) (tx : Tx) : creates tx = true ↔ (tx.content H).flags &&& 0x01 ≠ 0 := by
  cases tx with
  | basic t => simp [creates, Tx.content]
  | extended t => simp [creates, Tx.content]

theorem createContract_map (E : Env) (tx : Tx) (height : UInt32) (m : AMap) (hc : creates tx = true) :
    createContract E mapLedger tx height m =
      match contractOf tx height (balance (m tx.getRecipient.1)) with
      | .ok x => (.ok (), m.set tx.getRecipient.1 x)
      | .err e => (.err e, m)
      | .panic => (.panic, m) := by
  unfold createContract contractOf
  have hf := (creates_iff E.H tx).mp hc
  rw [if_neg hf, M.bind_eq, mapLedger_get]
  simp only [content_recipient, content_recipientType]
  by_cases h0 : tx.getRecipient.2 = 0
  · rw [h0]; rfl
  · rw [if_neg h0]
    by_cases h1 : tx.getRecipient.2 = 1
    · rw [if_pos h1, if_pos h1, M.bind_eq, M.lift_eq]
      cases initVesting tx height (balance (m tx.getRecipient.1)) <;> rfl
    · rw [if_neg h1, if_neg h1]
      by_cases h2 : tx.getRecipient.2 = 2
      · rw [if_pos h2, if_pos h2, M.bind_eq, M.lift_eq]
        cases initHTLC tx height (balance (m tx.getRecipient.1)) <;> rfl
      · rw [if_neg h2, if_neg h2]; rfl

/-- One step of `createContracts`. -/
def createStep (E : Env) (height : UInt32) (tx : Tx) : M AMap Unit :=
  if (tx.content E.H).flags &&& 0x01 ≠ 0 then createContract E mapLedger tx height else return ()

theorem createContracts_eq (E : Env) (height : UInt32) (body : Body) :
    createContracts E mapLedger height body = forTxs body.txs (createStep E height) := rfl

theorem createStep_map (E : Env) (height : UInt32) (tx : Tx) (m : AMap) : createStep E height tx m =
    if creates tx = true then
      match contractOf tx height (balance (m tx.getRecipient.1)) with
      | .ok x => (.ok (), m.set tx.getRecipient.1 x)
      | .err e => (.err e, m)
      | .panic => (.panic, m)
    else (.ok (), m) := by
  unfold createStep
  by_cases hc : creates tx = true
  · rw [if_pos hc, if_pos ((creates_iff E.H tx).mp hc), createContract_map E tx height m hc]
  · rw [if_neg hc, if_neg (fun h => hc ((creates_iff E.H tx).mpr h))]; rfl

theorem contractOf_ok {tx : Tx} {h : UInt32} {b : UInt64} {x : Account} (e : contractOf tx h b = .ok x) :
    balance x = b ∧ x.type ≠ 0 ∧ x.type = tx.getRecipient.2 := by
  unfold contractOf at e
  split at e
  · rename_i h1
    simp only [initVesting, Out.bind_eq_ok] at e
    obtain ⟨t, ht, e⟩ := e
    split at e
    · simp only [Out.bind_eq_ok] at e
      obtain ⟨p, _, e⟩ := e
      cases e; exact ⟨rfl, by simp [Account.type], by rw [h1]; rfl⟩
    · split at e
      · simp only [Out.bind_eq_ok] at e
        obtain ⟨p, _, e⟩ := e
        cases e; exact ⟨rfl, by simp [Account.type], by rw [h1]; rfl⟩
      · split at e
        · simp only [Out.bind_eq_ok] at e
          obtain ⟨p, _, e⟩ := e
          cases e; exact ⟨rfl, by simp [Account.type], by rw [h1]; rfl⟩
        · cases e
  · split at e
    · rename_i h1
      simp only [initHTLC, Out.bind_eq_ok] at e
      obtain ⟨t, ht, p, hp, e⟩ := e
      split at e
      · cases e
      · cases e; exact ⟨rfl, by simp [Account.type], by rw [h1]; rfl⟩
    · cases e

/-- The last transaction that asks for a contract at `a`. -/
def lastCreate (a : Addr) (txs : List Tx) : Option Tx :=
  (txs.filter fun tx => creates tx = true ∧ tx.getRecipient.1 = a).getLast?

theorem lastCreate_nil (a : Addr) : lastCreate a [] = none := rfl

theorem lastCreate_cons_pos {a : Addr} {tx : Tx} {txs : List Tx} (h : creates tx = true ∧ tx.getRecipient.1 = a) :
    lastCreate a (tx :: txs) = some ((lastCreate a txs).getD tx) := by
  unfold lastCreate
  rw [List.filter_cons_of_pos (by simpa using h), List.getLast?_cons]

theorem lastCreate_cons_neg {a : Addr} {tx : Tx} {txs : List Tx} (h : ¬ (creates tx = true ∧ tx.getRecipient.1 = a)) :
    lastCreate a (tx :: txs) = lastCreate a txs := by
  unfold lastCreate
  rw [List.filter_cons_of_neg (by simpa using h)]

/-- After contract creation. -/
def afterCreate (height : UInt32) (txs : List Tx) (m : AMap) : AMap := fun a =>
  match lastCreate a txs with
  | none => m a
  | some tx =>
    match contractOf tx height (balance (m a)) with
    | .ok x => x
    | _ => m a

theorem creates_ok {E : Env} {height : UInt32} : ∀ {txs : List Tx} {m m' : AMap} {u : Unit},
    forTxs txs (createStep E height) m = (.ok u, m') → m' = afterCreate height txs m ∧
      ∀ tx ∈ txs, creates tx = true → ∃ x, contractOf tx height (balance (m tx.getRecipient.1)) = .ok x := by
  intro txs
  induction txs with
  | nil =>
    intro m m' u h
    rw [forTxs_nil] at h; cases h
    refine ⟨?_, by simp⟩
    funext a; simp [afterCreate, lastCreate_nil]
  | cons tx txs ih =>
    intro m m' u h
    obtain ⟨m1, h1, h2⟩ := forTxs_cons_ok h
    rw [createStep_map] at h1
    obtain ⟨ih1, ih2⟩ := ih h2
    by_cases hc : creates tx = true
    · rw [if_pos hc] at h1
      cases hk : contractOf tx height (balance (m tx.getRecipient.1)) with
      | err e => rw [hk] at h1; cases h1
      | panic => rw [hk] at h1; cases h1
      | ok x =>
        rw [hk] at h1; cases h1
        have hb : ∀ a, balance ((m.set tx.getRecipient.1 x) a) = balance (m a) := by
          intro a
          by_cases ha : a = tx.getRecipient.1
          · subst ha; rw [AMap.set_same, (contractOf_ok hk).1]
          · rw [AMap.set_ne _ _ ha]
        refine ⟨?_, ?_⟩
        · rw [ih1]
          funext a
          by_cases ha : tx.getRecipient.1 = a
          · simp only [afterCreate, lastCreate_cons_pos (txs := txs) ⟨hc, ha⟩, hb]
            cases hl : lastCreate a txs with
            | none =>
              simp only [Option.getD_none]
              subst ha
              rw [hk, AMap.set_same]
            | some t =>
              simp only [Option.getD_some]
              have hmem := List.mem_of_getLast? hl
              have hm2 := List.mem_filter.mp hmem
              simp only [decide_eq_true_eq] at hm2
              obtain ⟨y, hy⟩ := ih2 t hm2.1 hm2.2.1
              rw [hm2.2.2, hb] at hy
              rw [hy]
          · simp only [afterCreate, lastCreate_cons_neg (txs := txs) (fun h => ha h.2), hb]
            rw [AMap.set_ne _ _ (Ne.symm ha)]
        · intro t ht hct
          rcases List.mem_cons.mp ht with rfl | ht
          · exact ⟨x, hk⟩
          · have := ih2 t ht hct; rwa [hb] at this
    · rw [if_neg hc] at h1
      cases h1
      refine ⟨?_, ?_⟩
      · rw [ih1]
        funext a
        simp only [afterCreate, lastCreate_cons_neg (txs := txs) (fun h => hc h.1)]
      · intro t ht hct
        rcases List.mem_cons.mp ht with rfl | ht
        · exact absurd hct hc
        · exact ih2 t ht hct

end Nimiq.Accounts
