import Verif.Accounts.Recover
/-!
# C118: the process dies in the middle of `Push`

`Push` writes one account after the other.  Here the process dies (or another goroutine looks) after an arbitrary number of
those writes.  What is then in the tree is what the next process finds in a persistent `Store`, or what the other goroutine
reads.  (A death in the middle of one write is C103.)
-/
namespace Nimiq.Accounts
open Beserial Beserial.Spec Wire Spec Float64

/-- The operations of accounts.go in a process that dies at the write after the first `k` account writes (accounts.go:87-99
`PutAccount`); `k` is the second component of the state.  A call that the death interrupts does not return: `panic`. -/
def dying {σ : Type} (L : Ledger σ) : Ledger (σ × Nat) where
  getAccount a := fun s => ((L.getAccount a s.1).1, ((L.getAccount a s.1).2, s.2))
  putAccount a x := fun s =>
    match s.2 with
    | 0 => (.panic, s)
    | k + 1 => ((L.putAccount a x s.1).1, ((L.putAccount a x s.1).2, k))
  blockReward h := fun s => ((L.blockReward h s.1).1, ((L.blockReward h s.1).2, s.2))

/-- accounts.go:39-60 `Accounts.Push` in a process that dies when it is about to make its account write number `k + 1`; the
outcome and what is left -/
def PushUntil (E : Env) (k : Nat) (block : Block) (n : Node) : Out Unit × Node :=
  ((push E (dying (nodeLedger E.H)) block (n, k)).1, (push E (dying (nodeLedger E.H)) block (n, k)).2.1)

variable {E : Env} {n n' : Node} {α β : Type}

/-! ## An invariant of every point in time -/

/-- If `P` holds before, `I` holds when the call ends or is interrupted, and `Q` when it succeeds. -/
def Safe {σ : Type} (I P : σ → Prop) (x : M (σ × Nat) α) (Q : α → σ → Prop) : Prop :=
  ∀ s, P s.1 → I (x s).2.1 ∧ ∀ a, (x s).1 = .ok a → Q a (x s).2.1

section
variable {σ : Type} {I P : σ → Prop}

theorem Safe.bind {x : M (σ × Nat) α} {f : α → M (σ × Nat) β} {Q : α → σ → Prop} {R : β → σ → Prop} (h : Safe I P x Q)
    (hf : ∀ a, Safe I (Q a) (f a) R) : Safe I P (x >>= f) R := by
  intro s hs
  obtain ⟨h1, h2⟩ := h s hs
  rw [M.bind_eq]
  rcases hx : x s with ⟨o, s'⟩
  rw [hx] at h1 h2
  cases o with
  | ok a => exact hf a s' (h2 a rfl)
  | err e => exact ⟨h1, fun _ h => by cases h⟩
  | panic => exact ⟨h1, fun _ h => by cases h⟩

/-- A call without effect. -/
theorem Safe.still {x : M (σ × Nat) α} {Q : α → σ → Prop} (hx : ∀ s, (x s).2 = s)
    (h : ∀ s, P s.1 → I s.1 ∧ ∀ a, (x s).1 = .ok a → Q a s.1) : Safe I P x Q := by
  intro s hs
  rw [hx]
  exact h s hs

theorem Safe.weaken {x : M (σ × Nat) α} {P' : σ → Prop} {Q Q' : α → σ → Prop} (h : Safe I P' x Q') (hp : ∀ s, P s → P' s)
    (hq : ∀ a s, Q' a s → Q a s) : Safe I P x Q :=
  fun s hs => ⟨(h s (hp _ hs)).1, fun a ha => hq a _ ((h s (hp _ hs)).2 a ha)⟩

/-- Over the transactions: `P txs` is what holds when `txs` are still to do. -/
theorem Safe.forTxs {P : List Tx → σ → Prop} {f : Tx → M (σ × Nat) Unit} (hI : ∀ s, P [] s → I s) :
    ∀ txs, (∀ tx rest, tx ∈ txs → Safe I (P (tx :: rest)) (f tx) fun _ => P rest) →
      Safe I (P txs) (forTxs txs f) fun _ => P [] := by
  intro txs
  induction txs with
  | nil => intro _ s hs; exact ⟨hI _ hs, fun _ _ => hs⟩
  | cons tx txs ih =>
    intro h
    exact Safe.bind (h tx txs (List.mem_cons_self ..)) fun _ =>
      ih fun t rest ht => h t rest (List.mem_cons_of_mem _ ht)

end

section
variable {I P : AMap → Prop}

theorem safe_put {a : Addr} {x : Option Account} {Q : Unit → AMap → Prop}
    (h : ∀ m, P m → I m ∧ I (m.set a (x.getD initialAccount)) ∧ Q () (m.set a (x.getD initialAccount))) :
    Safe I P ((dying mapLedger).putAccount a x) Q := by
  rintro ⟨m, k⟩ hs
  obtain ⟨h1, h2, h3⟩ := h m hs
  cases k with
  | zero => exact ⟨h1, fun _ h => by cases h⟩
  | succ k => exact ⟨h2, fun _ _ => h3⟩

theorem safe_pushTx {a : Addr} {ty : UInt8} {tx : Tx} {h : UInt32} {op : AccountOp} {Q : Unit → AMap → Prop}
    (hp : ∀ m, P m → I m ∧ ∀ x, op (m a) tx h = .ok x → I (m.set a x) ∧ Q () (m.set a x)) :
    Safe I P (pushTx (dying mapLedger) a ty tx h op) Q := by
  unfold pushTx
  refine Safe.bind (Q := fun acc m => P m ∧ acc = m a) (fun s hs => ⟨(hp _ hs).1, fun acc h => ?_⟩) fun acc => ?_
  · have : (Out.ok (s.1 a) : Out Account) = .ok acc := h
    cases this
    exact ⟨hs, rfl⟩
  · split
    · exact Safe.still (fun _ => rfl) fun s hs => ⟨(hp _ hs.1).1, fun _ h => by cases h⟩
    · refine Safe.bind (Q := fun x m => P m ∧ op (m a) tx h = .ok x) (Safe.still (fun _ => rfl) fun s hs =>
        ⟨(hp _ hs.1).1, fun x hx => ⟨hs.1, ?_⟩⟩) fun x => safe_put fun m hm =>
          ⟨(hp m hm.1).1, (hp m hm.1).2 x hm.2⟩
      rw [← hs.2]; exact hx

theorem safe_createContract {tx : Tx} {height : UInt32} {Q : Unit → AMap → Prop}
    (hp : ∀ m, P m → I m ∧ ∀ x, contractOf tx height (balance (m tx.getRecipient.1)) = .ok x →
      I (m.set tx.getRecipient.1 x) ∧ Q () (m.set tx.getRecipient.1 x)) :
    Safe I P (createContract E (dying mapLedger) tx height) Q := by
  have hput : ∀ x, Safe I (fun m => P m ∧ contractOf tx height (balance (m tx.getRecipient.1)) = .ok x)
      ((dying mapLedger).putAccount tx.getRecipient.1 (some x)) Q := fun x => safe_put fun m hm =>
    ⟨(hp m hm.1).1, (hp m hm.1).2 x hm.2⟩
  unfold createContract
  simp only [content_recipient]
  split
  · exact Safe.still (fun _ => rfl) fun s hs => ⟨(hp _ hs).1, fun _ h => by cases h⟩
  · refine Safe.bind (Q := fun acc m => P m ∧ acc = m tx.getRecipient.1) (fun s hs => ⟨(hp _ hs).1, fun acc h => ?_⟩)
      fun acc => ?_
    · have : (Out.ok (s.1 tx.getRecipient.1) : Out Account) = .ok acc := h
      cases this
      exact ⟨hs, rfl⟩
    · split
      · exact Safe.still (fun _ => rfl) fun s hs => ⟨(hp _ hs.1).1, fun _ h => by cases h⟩
      · split
        · rename_i h1
          refine Safe.bind (Q := fun x m => P m ∧ contractOf tx height (balance (m tx.getRecipient.1)) = .ok x)
            (Safe.still (fun _ => rfl) fun s hs => ⟨(hp _ hs.1).1, fun x hx => ⟨hs.1, ?_⟩⟩) hput
          have hx' : initVesting tx height (balance acc) = .ok x := hx
          rw [content_recipientType] at h1
          rw [hs.2] at hx'
          unfold contractOf
          rw [if_pos h1]; exact hx'
        · split
          · rename_i h1 h2
            refine Safe.bind (Q := fun x m => P m ∧ contractOf tx height (balance (m tx.getRecipient.1)) = .ok x)
              (Safe.still (fun _ => rfl) fun s hs => ⟨(hp _ hs.1).1, fun x hx => ⟨hs.1, ?_⟩⟩) hput
            have hx' : initHTLC tx height (balance acc) = .ok x := hx
            rw [content_recipientType] at h1 h2
            rw [hs.2] at hx'
            unfold contractOf
            rw [if_neg h1, if_pos h2]; exact hx'
          · exact Safe.still (fun _ => rfl) fun s hs => ⟨(hp _ hs.1).1, fun _ h => by cases h⟩

theorem safe_pruneLoop {txs : List Tx} (hi : ∀ m, P m → I m)
    (hp : ∀ m tx, tx ∈ txs → P m → isEmpty (m (tx.getSender E.H).1) = true →
      P (m.set (tx.getSender E.H).1 initialAccount)) :
    ∀ pm, Safe I P (pruneLoop E (dying mapLedger) txs pm) fun _ => P := by
  induction txs with
  | nil => intro pm s hs; exact ⟨hi _ hs, fun _ _ => hs⟩
  | cons tx txs ih =>
    intro pm
    have hrec := ih fun m t ht => hp m t (List.mem_cons_of_mem _ ht)
    unfold pruneLoop
    refine Safe.bind (Q := fun acc m => P m ∧ acc = m (tx.getSender E.H).1) (fun s hs => ⟨hi _ hs, fun acc h => ?_⟩)
      fun acc => ?_
    · have : (Out.ok (s.1 (tx.getSender E.H).1) : Out Account) = .ok acc := h
      cases this
      exact ⟨hs, rfl⟩
    · split
      · exact (hrec pm).weaken (fun _ h => h.1) fun _ _ h => h
      · rename_i hc
        cases pm.get (tx.getSender E.H).1 with
        | none => exact Safe.still (fun _ => rfl) fun s hs => ⟨hi _ hs.1, fun _ h => by cases h⟩
        | some y =>
          simp only []
          split
          · exact Safe.still (fun _ => rfl) fun s hs => ⟨hi _ hs.1, fun _ h => by cases h⟩
          · refine Safe.bind (Q := fun _ m => P m) (safe_put fun m hm => ?_) fun _ => hrec _
            have he : isEmpty (m (tx.getSender E.H).1) = true := by
              rw [← hm.2]
              cases h : isEmpty acc with
              | true => rfl
              | false => exact absurd (.inl h) hc
            have := hp m tx (List.mem_cons_self ..) hm.1 he
            exact ⟨hi _ hm.1, hi _ this, this⟩

end

/-! ## Money at every point in time -/

theorem sender_step_total {H : Bytes → Hash32} {m : AMap} {tx : Tx} {rest : List Tx} {height : UInt32} {x : Account}
    (hw : NoWrap H m (tx :: rest)) (hv : VestingSolvent H m (tx :: rest))
    (e1 : applyOutgoing E (m (tx.getSender H).1) tx height = .ok x) :
    total (m.set (tx.getSender H).1 x) + value tx ≤ total m ∧ NoWrap H (m.set (tx.getSender H).1 x) rest ∧
      VestingSolvent H (m.set (tx.getSender H).1 x) rest := by
  have e3 := applyOutgoing_ok e1
  have hd := debit_exact (acc := m (tx.getSender H).1) (tx := tx) (hw tx (List.mem_cons_self ..))
  have hle : (debit (m (tx.getSender H).1) tx).toNat ≤ (balance (m (tx.getSender H).1)).toNat := by
    by_cases ht : (m (tx.getSender H).1).type = 1
    · have := hv _ ht
      rw [sentValue, List.filter_cons_of_pos (by simp), List.map_cons, List.sum_cons, funds_eq] at this
      rw [hd, debitN, ht]
      simp only [show (1 : UInt8) ≠ 0 by decide, if_false]
      omega
    · exact applyOutgoing_le e1 ht
  have hty : ∀ a, (m.set (tx.getSender H).1 x a).type = (m a).type := by
    intro a; rw [e3]; exact type_set_debit a
  have hsub : (balance (m (tx.getSender H).1) - debit (m (tx.getSender H).1) tx).toNat =
      (balance (m (tx.getSender H).1)).toNat - (debit (m (tx.getSender H).1) tx).toNat :=
    UInt64.toNat_sub_of_le _ _ (by rw [UInt64.le_iff_toNat_le]; exact hle)
  refine ⟨?_, ?_, ?_⟩
  · have hset := total_set m (tx.getSender H).1 x
    have hbx : (balance x).toNat = (balance (m (tx.getSender H).1)).toNat - (debit (m (tx.getSender H).1) tx).toNat := by
      rw [e3, balance_withBalance, hsub]
    have hge : value tx ≤ debitN (m (tx.getSender H).1) tx := by unfold debitN; omega
    omega
  · intro t ht h0
    rw [hty] at h0
    exact hw t (List.mem_cons_of_mem _ ht) h0
  · intro a ha
    rw [hty] at ha
    have := hv a ha
    rw [funds_eq] at this ⊢
    by_cases hs : (tx.getSender H).1 = a
    · rw [sentValue, List.filter_cons_of_pos (by simpa using hs), List.map_cons, List.sum_cons] at this
      have hd' := hd
      rw [hs] at hd' hsub
      rw [hs, AMap.set_same, e3, hs, balance_withBalance, hsub, hd', debitN, ha]
      simp only [show (1 : UInt8) ≠ 0 by decide, if_false]
      unfold sentValue
      omega
    · rw [sentValue, List.filter_cons_of_neg (by simpa using hs)] at this
      rw [AMap.set_ne _ _ (Ne.symm hs)]
      exact this

theorem recipient_step_total {m : AMap} {tx : Tx} {height : UInt32} {x : Account}
    (e : applyIncoming (m tx.getRecipient.1) tx height = .ok x) :
    total (m.set tx.getRecipient.1 x) ≤ total m + value tx := by
  obtain ⟨_, e3⟩ := applyIncoming_ok e
  have hset := total_set m tx.getRecipient.1 x
  have hb : (balance x).toNat ≤ (balance (m tx.getRecipient.1)).toNat + value tx := by
    rw [e3, balance_withBalance, UInt64.toNat_add]
    exact Nat.mod_le _ _
  omega

theorem contractOf_balance {tx : Tx} {h : UInt32} {b : UInt64} {x : Account} (e : contractOf tx h b = .ok x) :
    balance x = b := by
  exact (contractOf_ok e).1

/-- Like `Safe`, of the calls that do not succeed. -/
def SafeF {σ : Type} (I P : σ → Prop) (x : M (σ × Nat) α) : Prop := ∀ s, P s.1 → (∀ a, (x s).1 ≠ .ok a) → I (x s).2.1

theorem SafeF.bind {σ : Type} {I P : σ → Prop} {x : M (σ × Nat) α} {f : α → M (σ × Nat) β} {Q : α → σ → Prop}
    (h : Safe I P x Q) (hf : ∀ a, SafeF I (Q a) (f a)) : SafeF I P (x >>= f) := by
  intro s hs hn
  obtain ⟨h1, h2⟩ := h s hs
  rw [M.bind_eq] at hn ⊢
  rcases hx : x s with ⟨o, s'⟩
  rw [hx] at h1 h2 hn
  cases o with
  | ok a => exact hf a s' (h2 a rfl) hn
  | err e => exact h1
  | panic => exact h1

theorem safe_inherents {I : AMap → Prop} {height : UInt32} {body : Body} :
    SafeF I I (pushInherents (dying mapLedger) height body) := by
  rintro ⟨m, k⟩ hs hn
  unfold pushInherents at hn ⊢
  rw [M.bind_eq] at hn ⊢
  have hst : ((dying mapLedger).blockReward height (m, k)).2 = (m, k) := by
    show ((mapLedger.blockReward height m).2, k) = (m, k)
    unfold mapLedger
    simp only []
    split <;> rfl
  rcases hr : (dying mapLedger).blockReward height (m, k) with ⟨o, s⟩
  rw [hr] at hst hn
  cases hst
  cases o with
  | err e => exact hs
  | panic => exact hs
  | ok r =>
    simp only [] at hn ⊢
    have key : ∀ {a : Addr} {ty : UInt8} {tx : Tx} {h : UInt32} {op : AccountOp},
        (∀ u, (pushTx (dying mapLedger) a ty tx h op (m, k)).1 ≠ .ok u) →
        (pushTx (dying mapLedger) a ty tx h op (m, k)).2.1 = m := by
      intro a ty tx h op
      unfold pushTx
      rw [M.bind_eq]
      have hg : (dying mapLedger).getAccount a (m, k) = (.ok (m a), (m, k)) := rfl
      rw [hg]
      simp only []
      split
      · intro _; rfl
      · rw [M.bind_eq]
        rcases ho : op (m a) tx h with x | e | _
        · simp only [M.lift_eq]
          cases k with
          | zero => intro _; rfl
          | succ k => intro hn; exact absurd rfl (hn ())
        · intro _; rfl
        · intro _; rfl
    show I (pushTx (dying mapLedger) body.minerAddr 0 _ height applyIncoming (m, k)).2.1
    rw [key hn]
    exact hs

theorem crash_total {block : Block} {body : Body} (hb : block.body = some body) {m : AMap} (k : Nat)
    (hw : NoWrap E.H m body.txs) (hv : VestingSolvent E.H m body.txs)
    (hn : ∀ u, (push E (dying mapLedger) block (m, k)).1 ≠ .ok u) :
    total (push E (dying mapLedger) block (m, k)).2.1 ≤ total m := by
  let V := (body.txs.map value).sum
  let I : AMap → Prop := fun m' => total m' ≤ total m
  let P1 : List Tx → AMap → Prop := fun txs m' => total m' + V ≤ total m + (txs.map value).sum ∧ (txs.map value).sum ≤ V ∧
    NoWrap E.H m' txs ∧ VestingSolvent E.H m' txs
  let P2 : List Tx → AMap → Prop := fun txs m' => total m' + (txs.map value).sum ≤ total m
  let P3 : List Tx → AMap → Prop := fun _ m' => total m' ≤ total m
  have main : SafeF I (P1 body.txs) (push E (dying mapLedger) block) := by
    unfold push
    rw [hb]
    simp only []
    refine SafeF.bind (Q := fun _ => P1 []) ?_ fun _ => SafeF.bind (Q := fun _ => P2 []) ?_ fun _ =>
      SafeF.bind (Q := fun _ => I) ?_ fun _ => SafeF.bind (Q := fun _ => I) ?_ fun _ => safe_inherents
    · unfold pushSenders
      refine Safe.forTxs (P := P1) (fun m' h => ?_) _ fun tx rest _ => safe_pushTx fun m' hm => ?_
      · have := h.1; simp only [List.map_nil, List.sum_nil] at this; show total m' ≤ total m; omega
      · simp only [content_sender]
        obtain ⟨h1, h2, h3, h4⟩ := hm
        refine ⟨by show total m' ≤ total m; omega, fun x hx => ?_⟩
        obtain ⟨g1, g2, g3⟩ := sender_step_total h3 h4 hx
        rw [List.map_cons, List.sum_cons] at h1 h2
        exact ⟨by show total (AMap.set m' _ x) ≤ total m; omega, by omega, by omega, g2, g3⟩
    · unfold pushRecipients
      refine Safe.weaken (P' := P2 body.txs) (Q' := fun _ => P2 []) (Safe.forTxs (P := P2) (fun m' h => ?_) _
        fun tx rest _ => safe_pushTx fun m' hm => ?_) (fun m' h => ?_) fun _ _ h => h
      · have := show total m' + 0 ≤ total m from h; show total m' ≤ total m; omega
      · simp only [content_recipient]
        have h1 : total m' + (value tx + (rest.map value).sum) ≤ total m := by
          have := show total m' + ((tx :: rest).map value).sum ≤ total m from hm
          rwa [List.map_cons, List.sum_cons] at this
        refine ⟨by show total m' ≤ total m; omega, fun x hx => ?_⟩
        have := recipient_step_total hx
        exact ⟨by show total (AMap.set m' _ x) ≤ total m; omega,
          by show total (AMap.set m' _ x) + (rest.map value).sum ≤ total m; omega⟩
      · have := h.1; simp only [List.map_nil, List.sum_nil] at this
        show total m' + (body.txs.map value).sum ≤ total m; exact this
    · unfold createContracts
      refine Safe.weaken (P' := P3 body.txs) (Q' := fun _ => P3 []) (Safe.forTxs (P := P3) (fun m' h => h) _
        fun tx rest _ => ?_) (fun m' h => ?_) fun _ _ h => h
      · simp only []
        split
        · refine safe_createContract fun m' hm => ⟨hm, fun x hx => ?_⟩
          have hset := total_set m' tx.getRecipient.1 x
          rw [contractOf_balance hx] at hset
          have : total (m'.set tx.getRecipient.1 x) = total m' := by omega
          have hle : total (m'.set tx.getRecipient.1 x) ≤ total m := by rw [this]; exact hm
          exact ⟨hle, hle⟩
        · exact Safe.still (fun _ => rfl) fun s hs => ⟨hs, fun _ _ => hs⟩
      · have := show total m' + 0 ≤ total m from h; show total m' ≤ total m; omega
    · unfold pruneAccounts
      refine Safe.bind (Q := fun _ => I) (safe_pruneLoop (fun _ h => h) (fun m' tx _ hm _ => ?_) _) fun pm =>
        Safe.still (fun s => ?_) fun s hs => ⟨hs, fun _ _ => hs⟩
      · have hset := total_set m' (tx.getSender E.H).1 initialAccount
        have h0 : (balance initialAccount).toNat = 0 := rfl
        have hm' : total m' ≤ total m := hm
        show total _ ≤ total m
        omega
      · split <;> rfl
  refine main (m, k) ⟨?_, Nat.le_refl _, hw, hv⟩ hn
  exact Nat.le_refl _

/-- At every point in time an uninvolved account is what it was. -/
theorem crash_frame {block : Block} {body : Body} (hb : block.body = some body) {m : AMap} (k : Nat) {b : Addr}
    (h : b ≠ body.minerAddr ∧ ∀ tx ∈ body.txs, (tx.getSender E.H).1 ≠ b ∧ tx.getRecipient.1 ≠ b) :
    (push E (dying mapLedger) block (m, k)).2.1 b = m b := by
  let I : AMap → Prop := fun m' => m' b = m b
  have hset : ∀ {a : Addr} {m' : AMap} {x : Account}, a ≠ b → I m' → I (m'.set a x) := fun ha hm =>
    (AMap.set_ne _ _ (Ne.symm ha)).trans hm
  have main : Safe I I (push E (dying mapLedger) block) fun _ => I := by
    unfold push
    rw [hb]
    simp only []
    have hfor : ∀ {f : Tx → M (AMap × Nat) Unit}, (∀ tx ∈ body.txs, Safe I I (f tx) fun _ => I) →
        Safe I I (forTxs body.txs f) fun _ => I := fun hf =>
      Safe.forTxs (P := fun _ => I) (fun _ h => h) _ fun tx rest ht => hf tx ht
    refine Safe.bind (Q := fun _ => I) ?_ fun _ => Safe.bind (Q := fun _ => I) ?_ fun _ =>
      Safe.bind (Q := fun _ => I) ?_ fun _ => Safe.bind (Q := fun _ => I) ?_ fun _ => ?_
    · refine hfor fun tx ht => safe_pushTx fun m' hm => ⟨hm, fun x _ => ?_⟩
      have := hset (x := x) (content_sender E.H tx ▸ (h.2 tx ht).1) hm
      exact ⟨this, this⟩
    · refine hfor fun tx ht => safe_pushTx fun m' hm => ⟨hm, fun x _ => ?_⟩
      have := hset (x := x) (content_recipient E.H tx ▸ (h.2 tx ht).2) hm
      exact ⟨this, this⟩
    · refine hfor fun tx ht => ?_
      simp only []
      split
      · refine safe_createContract fun m' hm => ⟨hm, fun x _ => ?_⟩
        have := hset (x := x) (h.2 tx ht).2 hm
        exact ⟨this, this⟩
      · exact Safe.still (fun _ => rfl) fun s hs => ⟨hs, fun _ _ => hs⟩
    · unfold pruneAccounts
      refine Safe.bind (Q := fun _ => I) (safe_pruneLoop (fun _ h => h) (fun m' tx ht hm _ =>
        hset (h.2 tx ht).1 hm) _) fun pm => Safe.still (fun s => ?_) fun s hs => ⟨hs, fun _ _ => hs⟩
      split <;> rfl
    · unfold pushInherents
      refine Safe.bind (Q := fun _ => I) (Safe.still (fun s => ?_) fun s hs => ⟨hs, fun _ _ => hs⟩) fun r =>
        safe_pushTx fun m' hm => ⟨hm, fun x _ => ?_⟩
      · show ((mapLedger.blockReward block.height s.1).2, s.2) = s
        unfold mapLedger
        simp only []
        split <;> rfl
      · have := hset (x := x) (Ne.symm h.1) hm
        exact ⟨this, this⟩
  exact (main (m, k) rfl).1

/-! ## From the map to the node -/

theorem sim_dying (H : Bytes → Hash32) : SimLedger (fun (s : Node × Nat) (t : AMap × Nat) => Rel H s.1 t.1 ∧ s.2 = t.2)
    (dying (nodeLedger H)) (dying mapLedger) where
  get a := by
    rintro ⟨s, k⟩ ⟨t, j⟩ ⟨h, rfl⟩
    have := (simLedger H).get a s t h
    exact ⟨this.1, this.2, rfl⟩
  put a x := by
    rintro ⟨s, k⟩ ⟨t, j⟩ ⟨h, hk⟩
    cases hk
    cases k with
    | zero => exact ⟨rfl, h, rfl⟩
    | succ k =>
      have := (simLedger H).put a x s t h
      exact ⟨this.1, this.2, rfl⟩
  reward a := by
    rintro ⟨s, k⟩ ⟨t, j⟩ ⟨h, rfl⟩
    have := (simLedger H).reward a s t h
    exact ⟨this.1, this.2, rfl⟩

theorem crash_map (h : Reach E n) (k : Nat) (block : Block) :
    (PushUntil E k block n).1 = (push E (dying mapLedger) block (accountOf n, k)).1 ∧
    accountOf (PushUntil E k block n).2 = (push E (dying mapLedger) block (accountOf n, k)).2.1 := by
  have := sim_push E (sim_dying E.H) block (n, k) (accountOf n, k) ⟨h.acc, rfl⟩
  exact ⟨this.1, this.2.1.accountOf⟩

/-- What a crash leaves behind is a state that some sequence of completed calls also produces: the tree is intact. -/
theorem crash_reach (h : Reach E n) (k : Nat) (block : Block) : Reach E (PushUntil E k block n).2 := by
  have S : SimLedger (fun s t : Node × Nat => s = t ∧ Reach E s.1) (dying (nodeLedger E.H)) (dying (nodeLedger E.H)) := by
    refine ⟨fun a => ?_, fun a x => ?_, fun g => ?_⟩
    · rintro ⟨s, k⟩ _ ⟨rfl, hs⟩
      refine ⟨rfl, rfl, ?_⟩
      show Reach E (Node.getAccount a s).2
      rw [hs.acc.getAccount a]; exact hs
    · rintro ⟨s, k⟩ _ ⟨rfl, hs⟩
      cases k with
      | zero => exact ⟨rfl, rfl, hs⟩
      | succ k => exact ⟨rfl, rfl, .put a x hs⟩
    · rintro ⟨s, k⟩ _ ⟨rfl, hs⟩
      refine ⟨rfl, rfl, ?_⟩
      have hr := (simLedger E.H).reward g s _ hs.acc
      have ht : (Node.blockReward g s).2.tree = s.tree := by
        unfold Node.blockReward
        split <;> rfl
      show Reach E (Node.blockReward g s).2
      have := Reach.policy hs hr.2.cache
      rw [← ht] at this
      exact this
  exact (sim_push E S block (n, k) (n, k) ⟨rfl, h⟩).2.2

/-! ## One account at a time -/

/-- With one write more, the same happens, or the call stops one write later. -/
def Stepwise (x : M (AMap × Nat) α) : Prop :=
  (∀ m, (x (m, 0)).2 = (m, 0)) ∧
  ∀ m k, ((x (m, k + 1)).1 = (x (m, k)).1 ∧ (x (m, k + 1)).2.1 = (x (m, k)).2.1 ∧ (x (m, k + 1)).2.2 = (x (m, k)).2.2 + 1) ∨
    ((x (m, k)).1 = .panic ∧ ∃ a y, (x (m, k + 1)).2 = ((x (m, k)).2.1.set a y, 0))

theorem Stepwise.bind {x : M (AMap × Nat) α} {f : α → M (AMap × Nat) β} (h : Stepwise x) (hf : ∀ a, Stepwise (f a)) :
    Stepwise (x >>= f) := by
  refine ⟨fun m => ?_, fun m k => ?_⟩
  · rw [M.bind_eq]
    have h1 := h.1 m
    rcases hx : x (m, 0) with ⟨o, s⟩
    rw [hx] at h1
    cases h1
    cases o with
    | ok a => exact (hf a).1 m
    | err e => rfl
    | panic => rfl
  · rw [M.bind_eq, M.bind_eq]
    have h1 := h.2 m k
    rcases hx : x (m, k) with ⟨o, m1, j⟩
    rcases hy : x (m, k + 1) with ⟨o', m2, j'⟩
    rw [hx, hy] at h1
    rcases h1 with ⟨e1, e2, e3⟩ | ⟨e1, a, y, e2⟩
    · simp only at e1 e2 e3
      subst e1; subst e2; subst e3
      cases o' with
      | ok a => exact (hf a).2 m2 j
      | err e => exact .inl ⟨rfl, rfl, rfl⟩
      | panic => exact .inl ⟨rfl, rfl, rfl⟩
    · simp only at e1
      subst e1
      cases e2
      refine .inr ⟨rfl, a, y, ?_⟩
      cases o' with
      | ok b => exact (hf b).1 _
      | err e => rfl
      | panic => rfl

theorem Stepwise.still {x : M (AMap × Nat) α} (h : ∀ m k, (x (m, k)).2 = (m, k)) (h' : ∀ m k, (x (m, k)).1 = (x (m, 0)).1) :
    Stepwise x :=
  ⟨fun m => h m 0, fun m k => .inl ⟨by rw [h', h' m k], by rw [h, h], by rw [h, h]⟩⟩

theorem Stepwise.ite {c : Prop} [Decidable c] {x y : M (AMap × Nat) α} (h : Stepwise x) (h' : Stepwise y) :
    Stepwise (if c then x else y) := by
  by_cases hc : c
  · rwa [if_pos hc]
  · rwa [if_neg hc]

theorem Stepwise.throw (e : Err) : Stepwise (M.throw e : M (AMap × Nat) α) := .still (fun _ _ => rfl) fun _ _ => rfl
theorem Stepwise.panic : Stepwise (M.panic : M (AMap × Nat) α) := .still (fun _ _ => rfl) fun _ _ => rfl
theorem Stepwise.lift (x : Out α) : Stepwise (M.lift x : M (AMap × Nat) α) := .still (fun _ _ => rfl) fun _ _ => rfl
theorem Stepwise.pure (x : α) : Stepwise (Pure.pure x : M (AMap × Nat) α) := .still (fun _ _ => rfl) fun _ _ => rfl
theorem Stepwise.get (a : Addr) : Stepwise ((dying mapLedger).getAccount a) := .still (fun _ _ => rfl) fun _ _ => rfl
theorem Stepwise.reward (h : UInt32) : Stepwise ((dying mapLedger).blockReward h) := by
  refine .still (fun m k => ?_) fun _ _ => rfl
  show ((mapLedger.blockReward h m).2, k) = (m, k)
  unfold mapLedger
  simp only []
  split <;> rfl

theorem Stepwise.put (a : Addr) (x : Option Account) : Stepwise ((dying mapLedger).putAccount a x) := by
  refine ⟨fun m => rfl, fun m k => ?_⟩
  cases k with
  | zero => exact .inr ⟨rfl, a, x.getD initialAccount, rfl⟩
  | succ k => exact .inl ⟨rfl, rfl, rfl⟩

theorem Stepwise.forTxs {f : Tx → M (AMap × Nat) Unit} (h : ∀ tx, Stepwise (f tx)) : ∀ txs, Stepwise (forTxs txs f) := by
  intro txs
  induction txs with
  | nil => exact .pure ()
  | cons tx txs ih => exact .bind (h tx) fun _ => ih

theorem stepwise_pushTx (a : Addr) (ty : UInt8) (tx : Tx) (h : UInt32) (op : AccountOp) :
    Stepwise (pushTx (dying mapLedger) a ty tx h op) :=
  .bind (.get a) fun _ => .ite (.throw _) (.bind (.lift _) fun _ => .put a _)

theorem stepwise_pruneLoop : ∀ (txs : List Tx) (pm : PruneMap), Stepwise (pruneLoop E (dying mapLedger) txs pm) := by
  intro txs
  induction txs with
  | nil => intro pm; exact .pure pm
  | cons tx txs ih =>
    intro pm
    unfold pruneLoop
    refine .bind (.get _) fun acc => .ite (ih _) ?_
    cases pm.get (tx.getSender E.H).1 with
    | none => exact .throw _
    | some x => exact .ite (.throw _) (.bind (.put _ _) fun _ => ih _)

/-- What follows the senders in `push`. -/
theorem stepwise_rest (height : UInt32) (body : Body) : Stepwise (do
    pushRecipients E (dying mapLedger) height body
    createContracts E (dying mapLedger) height body
    pruneAccounts E (dying mapLedger) body
    pushInherents (dying mapLedger) height body) := by
  refine .bind (.forTxs (fun tx =>
    stepwise_pushTx _ _ _ _ _) _) fun _ => .bind (.forTxs (fun tx => .ite ?_ (.pure ())) _) fun _ => .bind ?_ fun _ => ?_
  · unfold createContract
    exact .ite .panic (.bind (.get _) fun acc => .ite (.throw _) (.ite (.bind (.lift _) fun _ => .put _ _)
      (.ite (.bind (.lift _) fun _ => .put _ _) (.throw _))))
  · unfold pruneAccounts
    refine .bind (stepwise_pruneLoop _ _) fun pm => ?_
    by_cases h : pm.map (·.1) ≠ []
    · simp only [dif_pos h]; exact .throw _
    · simp only [dif_neg h]; exact .pure ()
  · exact .bind (.reward _) fun r => stepwise_pushTx _ _ _ _ _

theorem stepwise_push (block : Block) : Stepwise (push E (dying mapLedger) block) := by
  unfold push
  cases block.body with
  | none => exact .panic
  | some body => exact .bind (.forTxs (fun tx => stepwise_pushTx _ _ _ _ _) _) fun _ => stepwise_rest _ _

/-! ## How many writes there are -/

/-- The call makes at most `j` account writes. -/
def Writes {σ : Type} (L : Ledger σ) (j : Nat) (x : M (σ × Nat) α) (y : M σ α) : Prop :=
  ∀ s k, j ≤ k → ∃ k', k ≤ k' + j ∧ x (s, k) = ((y s).1, ((y s).2, k'))

section
variable {σ : Type} {L : Ledger σ} {i j : Nat}

theorem Writes.bind {x : M (σ × Nat) α} {y : M σ α} {f : α → M (σ × Nat) β} {g : α → M σ β} (h : Writes L i x y)
    (hf : ∀ a, Writes L j (f a) (g a)) : Writes L (i + j) (x >>= f) (y >>= g) := by
  intro s k hk
  obtain ⟨k', h1, h2⟩ := h s k (by omega)
  rw [M.bind_eq, M.bind_eq, h2]
  rcases hy : y s with ⟨o, s'⟩
  cases o with
  | ok a =>
    obtain ⟨k'', g1, g2⟩ := hf a s' k' (by omega)
    exact ⟨k'', by omega, g2⟩
  | err e => exact ⟨k', by omega, rfl⟩
  | panic => exact ⟨k', by omega, rfl⟩

theorem Writes.mono {x : M (σ × Nat) α} {y : M σ α} (h : Writes L i x y) (hij : i ≤ j) : Writes L j x y := by
  intro s k hk
  obtain ⟨k', h1, h2⟩ := h s k (by omega)
  exact ⟨k', by omega, h2⟩

theorem Writes.ite {c : Prop} [Decidable c] {x x' : M (σ × Nat) α} {y y' : M σ α} (h : Writes L j x y)
    (h' : Writes L j x' y') : Writes L j (if c then x else x') (if c then y else y') := by
  by_cases hc : c
  · rwa [if_pos hc, if_pos hc]
  · rwa [if_neg hc, if_neg hc]

theorem Writes.throw (e : Err) : Writes L j (M.throw e : M (σ × Nat) α) (M.throw e) := fun _ k _ => ⟨k, by omega, rfl⟩
theorem Writes.panic : Writes L j (M.panic : M (σ × Nat) α) M.panic := fun _ k _ => ⟨k, by omega, rfl⟩
theorem Writes.lift (x : Out α) : Writes L j (M.lift x : M (σ × Nat) α) (M.lift x) := fun _ k _ => ⟨k, by omega, rfl⟩
theorem Writes.pure (x : α) : Writes L j (Pure.pure x : M (σ × Nat) α) (Pure.pure x) := fun _ k _ => ⟨k, by omega, rfl⟩
theorem Writes.get (a : Addr) : Writes L 0 ((dying L).getAccount a) (L.getAccount a) := fun _ k _ => ⟨k, by omega, rfl⟩
theorem Writes.reward (h : UInt32) : Writes L 0 ((dying L).blockReward h) (L.blockReward h) :=
  fun _ k _ => ⟨k, by omega, rfl⟩
theorem Writes.put (a : Addr) (x : Option Account) : Writes L 1 ((dying L).putAccount a x) (L.putAccount a x) := by
  intro s k hk
  cases k with
  | zero => omega
  | succ k => exact ⟨k, by omega, rfl⟩

theorem Writes.forTxs {f : Tx → M (σ × Nat) Unit} {g : Tx → M σ Unit} (h : ∀ tx, Writes L 1 (f tx) (g tx)) :
    ∀ txs, Writes L txs.length (forTxs txs f) (forTxs txs g) := by
  intro txs
  induction txs with
  | nil => exact .pure ()
  | cons tx txs ih => exact (Writes.bind (h tx) fun _ => ih).mono (by simp; omega)

theorem writes_pushTx (a : Addr) (ty : UInt8) (tx : Tx) (h : UInt32) (op : AccountOp) :
    Writes L 1 (pushTx (dying L) a ty tx h op) (pushTx L a ty tx h op) :=
  (Writes.bind (.get a) fun _ => .ite (.throw _) (((Writes.lift (j := 0) _).bind fun _ => .put a _))).mono (by omega)

theorem writes_pruneLoop : ∀ (txs : List Tx) (pm : PruneMap),
    Writes L txs.length (pruneLoop E (dying L) txs pm) (pruneLoop E L txs pm) := by
  intro txs
  induction txs with
  | nil => intro pm; exact .pure pm
  | cons tx txs ih =>
    intro pm
    unfold pruneLoop
    refine (Writes.bind (j := txs.length + 1) (.get _) fun acc => .ite ((ih _).mono (by omega)) ?_).mono (by simp)
    cases pm.get (tx.getSender E.H).1 with
    | none => exact .throw _
    | some x => exact .ite (.throw _) ((Writes.bind (.put _ _) fun _ => ih _).mono (by omega))

theorem writes_push (block : Block) (body : Body) (hb : block.body = some body) :
    Writes L (4 * body.txs.length + 1) (push E (dying L) block) (push E L block) := by
  unfold push
  rw [hb]
  simp only []
  refine Writes.mono (Writes.bind (.forTxs (fun tx => writes_pushTx _ _ _ _ _) _) fun _ => .bind (.forTxs (fun tx =>
    writes_pushTx _ _ _ _ _) _) fun _ => .bind (.forTxs (fun tx => .ite ?_ (.pure ())) _) fun _ =>
      .bind (i := body.txs.length) (j := 1) ?_ fun _ => ?_) (by omega)
  · unfold createContract
    exact .ite .panic ((Writes.bind (j := 1) (.get _) fun acc => .ite (.throw _)
      (.ite (((Writes.lift (j := 0) _).bind fun _ => .put _ _).mono (by omega))
        (.ite (((Writes.lift (j := 0) _).bind fun _ => .put _ _).mono (by omega)) (.throw _)))).mono (by omega))
  · unfold pruneAccounts
    refine (Writes.bind (j := 0) (writes_pruneLoop _ _) fun pm => ?_).mono (by omega)
    by_cases h : pm.map (·.1) ≠ []
    · simp only [dif_pos h]; exact .throw _
    · simp only [dif_neg h]; exact .pure ()
  · exact (Writes.bind (.reward _) fun r => writes_pushTx _ _ _ _ _).mono (by omega)

end

theorem pushTx_dying {a : Addr} {ty : UInt8} {tx : Tx} {h : UInt32} {op : AccountOp} {m : AMap} {k : Nat} {x : Account}
    (ht : ty = 0xFF ∨ ty = (m a).type) (hx : op (m a) tx h = .ok x) :
    pushTx (dying mapLedger) a ty tx h op (m, k) = (dying mapLedger).putAccount a (some x) (m, k) := by
  unfold pushTx
  rw [M.bind_eq, show (dying mapLedger).getAccount a (m, k) = (.ok (m a), (m, k)) from rfl]
  simp only []
  rw [if_neg (by rintro ⟨h1, h2⟩; rcases ht with h | h; exacts [h1 h, h2 h]), M.bind_eq, M.lift_eq, hx]

/-! ## C118 -/

/-- C118, the points in time. Before the first write everything is as it was; every write changes at most one account; with
`4 n + 1` writes allowed for `n` transactions the push runs to its end. -/
theorem C118_points_partial (hn : Reach E n) (block : Block) (body : Body) (hb : block.body = some body) :
    accountOf (PushUntil E 0 block n).2 = accountOf n ∧
    (∀ k, ∃ a, ∀ b, b ≠ a →
      accountOf (PushUntil E (k + 1) block n).2 b = accountOf (PushUntil E k block n).2 b) ∧
    ∀ k, 4 * body.txs.length + 1 ≤ k → PushUntil E k block n = Push E block n := by
  refine ⟨?_, fun k => ?_, fun k hk => ?_⟩
  · rw [(crash_map hn 0 block).2, (stepwise_push block).1]
  · rw [(crash_map hn k block).2, (crash_map hn (k + 1) block).2]
    rcases (stepwise_push block).2 (accountOf n) k with ⟨_, h, _⟩ | ⟨_, a, y, h⟩
    · exact ⟨body.minerAddr, fun b _ => by rw [h]⟩
    · exact ⟨a, fun b hb => by rw [h]; exact AMap.set_ne _ _ hb⟩
  · obtain ⟨k', _, h⟩ := writes_push (L := nodeLedger E.H) (E := E) block body hb n k hk
    unfold PushUntil Push
    rw [h]

/-- C118, what is safe. Whenever the process dies in the middle of a push, the accounts tree is intact (it is one that completed
calls can produce, so everything proved of those holds of it); accounts that the block does not involve are unchanged. -/
theorem C118_intact_partial (hn : Reach E n) (k : Nat) (block : Block) :
    Reach E (PushUntil E k block n).2 ∧
    ∀ b, (∀ body, block.body = some body → b ≠ body.minerAddr ∧
      ∀ tx ∈ body.txs, (tx.getSender E.H).1 ≠ b ∧ tx.getRecipient.1 ≠ b) →
      (Node.getAccount b (PushUntil E k block n).2).1 = (Node.getAccount b n).1 := by
  have hr := crash_reach hn k block
  refine ⟨hr, fun b h => ?_⟩
  rw [hr.acc.getAccount b, hn.acc.getAccount b, (crash_map hn k block).2]
  cases hb : block.body with
  | none =>
    unfold push
    rw [hb]
    rfl
  | some body => rw [crash_frame hb k (h body hb)]

/-- C118, no money appears. If a push does not succeed, because of an error, a panic or because the process dies after any
number of account writes, there is no more money than before. (Value plus fee must not overflow, and vesting contracts must not
send more than they have: C55.) -/
theorem C118_no_money_partial (hn : Reach E n) (k : Nat) (block : Block) (body : Body) (hb : block.body = some body)
    (hwrap : ∀ tx ∈ body.txs, (accountOf n (tx.getSender E.H).1).type = 0 → value tx + fee tx < 2 ^ 64)
    (hsolvent : ∀ a, (accountOf n a).type = 1 → sentValue E.H body.txs a ≤ funds (accountOf n a))
    (h : (PushUntil E k block n).1 ≠ .ok ()) :
    total (accountOf (PushUntil E k block n).2) ≤ total (accountOf n) := by
  rw [(crash_map hn k block).2]
  rw [(crash_map hn k block).1] at h
  exact crash_total hb k hwrap hsolvent fun u hu => h hu

example (E : Env) (a b c : Addr) (hac : a ≠ c) : ∃ (n : Node) (block : Block) (body : Body), Reach E n ∧ block.body = some body ∧
    body.txs ≠ [] ∧
    (∀ tx ∈ body.txs, (accountOf n (tx.getSender E.H).1).type = 0 → value tx + fee tx < 2 ^ 64) ∧
    (∀ a, (accountOf n a).type = 1 → sentValue E.H body.txs a ≤ funds (accountOf n a)) ∧
    (PushUntil E 0 block n).1 ≠ .ok () := by
  refine ⟨(Node.putAccount E.H a (some (.basic ⟨7⟩)) newNode).2,
    ⟨1, BArr.zero 32, some ⟨c, [.extended ⟨[], a, 0, b, 0, 3, 1, 1, 1, 0, []⟩], []⟩⟩, _, .put _ _ .new, rfl, by simp, ?_, ?_, ?_⟩
  · intro tx ht _
    rw [List.mem_singleton.mp ht]
    show (3 : UInt64).toNat + (1 : UInt64).toNat < 2 ^ 64
    decide
  · intro d hd
    rw [accountOf_put .new] at hd
    by_cases h : d = a
    · rw [h, AMap.set_same] at hd; cases hd
    · rw [AMap.set_ne _ _ h, accountOf_new] at hd; cases hd
  · have hr : Reach E (Node.putAccount E.H a (some (.basic ⟨7⟩)) newNode).2 := .put _ _ .new
    rw [(crash_map hr 0 _).1, accountOf_put .new]
    intro h
    have : ∀ (o : Out Unit), o = .ok () → o = .panic → False := by rintro _ rfl h; cases h
    refine this _ h ?_
    unfold push
    simp only []
    rw [M.bind_eq]
    unfold pushSenders forTxs
    rw [M.bind_eq]
    simp only []
    rw [pushTx_dying (x := .basic ⟨3⟩) (.inr ?_) ?_]
    · rfl
    · show (0 : UInt8) = (AMap.set _ a _ a).type
      rw [AMap.set_same]; rfl
    · show applyOutgoing E (AMap.set _ a _ a) _ 1 = _
      rw [AMap.set_same, basic_out (d := 4) rfl (by decide)]; rfl

/-- C118 is false in what a user would hope for: that a push happens completely or not at all. Take any transfer of `d` coins
(value and fee) from `a` to `b` in a block mined by `c`, with `a` holding at least `2 d`. If the process dies after the first
account write, `a` has lost `d` coins that nobody has got; and if the block is pushed again after the restart, the push
succeeds, debits `a` a second time, and `d` coins are gone for good. -/
theorem C118_twice_violated (hn : Reach E n) {a b c : Addr} {tx : Tx} {v d : UInt64} {height : UInt32} (hash : Hash32)
    (hab : a ≠ b) (hac : a ≠ c) (hbc : b ≠ c) (h0 : height ≠ 0) (hs : tx.getSender E.H = (a, 0))
    (hr : tx.getRecipient = (b, 0)) (hcr : creates tx = false) (hd : tx.amount.1 + tx.amount.2 = d) (hd0 : d ≠ 0)
    (hv : 2 * d.toNat ≤ v.toNat) (ha : accountOf n a = .basic ⟨v⟩) (hb : (accountOf n b).type = 0)
    (hc : (accountOf n c).type = 0) :
    let block : Block := ⟨height, hash, some ⟨c, [tx], []⟩⟩
    let crashed := (PushUntil E 1 block n).2
    let retried := (Push E block crashed).2
    let clean := (Push E block n).2
    total (accountOf crashed) + d.toNat = total (accountOf n) ∧ accountOf crashed ≠ accountOf n ∧
    (Push E block n).1 = .ok () ∧ (Push E block crashed).1 = .ok () ∧
    funds (accountOf clean a) = v.toNat - d.toNat ∧ funds (accountOf retried a) = v.toNat - 2 * d.toNat ∧
    (∀ x, x ≠ a → accountOf retried x = accountOf clean x) ∧
    total (accountOf retried) + d.toNat = total (accountOf clean) := by
  intro block crashed retried clean
  have hdle : d ≤ v := by rw [UInt64.le_iff_toNat_le]; omega
  have hsub : (v - d).toNat = v.toNat - d.toNat := UInt64.toNat_sub_of_le _ _ hdle
  have hdle2 : d ≤ v - d := by rw [UInt64.le_iff_toNat_le, hsub]; omega
  have hsub2 : (v - d - d).toNat = v.toNat - d.toNat - d.toNat := by rw [UInt64.toNat_sub_of_le _ _ hdle2, hsub]
  have hpos : 0 < d.toNat := by
    rcases Nat.eq_zero_or_pos d.toNat with h | h
    · exact absurd (UInt64.toNat_inj.mp h) hd0
    · exact h
  have hcra : accountOf crashed = AMap.set (accountOf n) a (.basic ⟨v - d⟩) := by
    show accountOf (PushUntil E 1 block n).2 = _
    rw [(crash_map hn 1 block).2]
    unfold push
    simp only [block]
    rw [M.bind_eq]
    have hsend : pushSenders E (dying mapLedger) height ⟨c, [tx], []⟩ (accountOf n, 1) =
        (.ok (), (AMap.set (accountOf n) a (.basic ⟨v - d⟩), 0)) := by
      show forTxs [tx] _ _ = _
      have hone : pushTx (dying mapLedger) (tx.content E.H).sender (tx.content E.H).senderType tx height (applyOutgoing E)
          (accountOf n, 1) = (.ok (), (AMap.set (accountOf n) a (.basic ⟨v - d⟩), 0)) := by
        rw [content_sender, content_senderType, hs, pushTx_dying (x := .basic ⟨v - d⟩) (.inr (by rw [ha]; rfl))
          (by rw [ha]; exact basic_out hd hdle)]
        rfl
      unfold forTxs
      rw [M.bind_eq]
      simp only [hone]
      rfl
    rw [hsend]
    simp only []
    rw [(stepwise_rest height ⟨c, [tx], []⟩).1]
  have hrc : Reach E crashed := crash_reach hn 1 block
  have q1 := single_push_node hn (hash := hash) (x := .basic ⟨v - d⟩) hab hac hbc h0 (by rw [hs])
    (.inr (by rw [hs, ha]; rfl)) hr hcr (by rw [ha]; exact basic_out hd hdle) (fun h => h.2 rfl) hb hc
  have hcb : accountOf crashed b = accountOf n b := by rw [hcra]; exact AMap.set_ne _ _ (Ne.symm hab)
  have hcc : accountOf crashed c = accountOf n c := by rw [hcra]; exact AMap.set_ne _ _ (Ne.symm hac)
  have hca : accountOf crashed a = .basic ⟨v - d⟩ := by rw [hcra]; exact AMap.set_same ..
  have q2 := single_push_node hrc (hash := hash) (x := .basic ⟨v - d - d⟩) hab hac hbc h0 (by rw [hs])
    (.inr (by rw [hs, hca]; rfl)) hr hcr (by rw [hca]; exact basic_out hd hdle2) (fun h => h.2 rfl) (by rw [hcb]; exact hb)
    (by rw [hcc]; exact hc)
  have c1 : accountOf clean a = .basic ⟨v - d⟩ := by
    show accountOf (Push E block n).2 a = _
    rw [q1.2, AMap.set_ne _ _ hac, AMap.set_ne _ _ hab, AMap.set_same]
  have c2 : accountOf retried a = .basic ⟨v - d - d⟩ := by
    show accountOf (Push E block crashed).2 a = _
    rw [q2.2, AMap.set_ne _ _ hac, AMap.set_ne _ _ hab, AMap.set_same]
  have c3 : ∀ x, x ≠ a → accountOf retried x = accountOf clean x := by
    intro x hx
    show accountOf (Push E block crashed).2 x = accountOf (Push E block n).2 x
    rw [q1.2, q2.2, hcb, hcc]
    by_cases hxc : x = c
    · subst hxc; rw [AMap.set_same, AMap.set_same]
    · rw [AMap.set_ne _ _ hxc, AMap.set_ne _ _ hxc]
      by_cases hxb : x = b
      · subst hxb; rw [AMap.set_same, AMap.set_same]
      · rw [AMap.set_ne _ _ hxb, AMap.set_ne _ _ hxb, AMap.set_ne _ _ hx, AMap.set_ne _ _ hx, hcra, AMap.set_ne _ _ hx]
  refine ⟨?_, ?_, q1.1, q2.1, ?_, ?_, c3, ?_⟩
  · have := total_set (accountOf n) a (.basic ⟨v - d⟩)
    rw [ha] at this
    rw [hcra]
    have e : (balance (.basic ⟨v - d⟩)).toNat = v.toNat - d.toNat := hsub
    have e' : (balance (.basic ⟨v⟩)).toNat = v.toNat := rfl
    omega
  · intro h
    have := congrFun h a
    rw [hca, ha] at this
    have h' : (v - d).toNat = v.toNat := congrArg (fun x => funds x) this
    omega
  · rw [c1]; exact hsub
  · rw [c2]; show (v - d - d).toNat = _; omega
  · have hset : accountOf retried = AMap.set (accountOf clean) a (.basic ⟨v - d - d⟩) := by
      funext x
      by_cases hx : x = a
      · subst hx; rw [c2, AMap.set_same]
      · rw [c3 x hx, AMap.set_ne _ _ hx]
    have := total_set (accountOf clean) a (.basic ⟨v - d - d⟩)
    rw [c1] at this
    rw [hset]
    have e : (balance (.basic ⟨v - d - d⟩)).toNat = v.toNat - d.toNat - d.toNat := hsub2
    have e' : (balance (.basic ⟨v - d⟩)).toNat = v.toNat - d.toNat := hsub
    omega

example (E : Env) (a b c : Addr) (hab : a ≠ b) (hac : a ≠ c) : ∃ (n : Node) (tx : Tx), Reach E n ∧
    tx.getSender E.H = (a, 0) ∧ tx.getRecipient = (b, 0) ∧ creates tx = false ∧ tx.amount.1 + tx.amount.2 = 4 ∧
    2 * (4 : UInt64).toNat ≤ (9 : UInt64).toNat ∧ accountOf n a = .basic ⟨9⟩ ∧ (accountOf n b).type = 0 ∧
    (accountOf n c).type = 0 := by
  refine ⟨(Node.putAccount E.H a (some (.basic ⟨9⟩)) newNode).2, .extended ⟨[], a, 0, b, 0, 3, 1, 1, 1, 0, []⟩,
    .put _ _ .new, rfl, rfl, creates_flags0 rfl, rfl, by decide, ?_, ?_, ?_⟩
  · rw [accountOf_put .new, AMap.set_same]
  · rw [accountOf_put .new, AMap.set_ne _ _ (Ne.symm hab), accountOf_new]; rfl
  · rw [accountOf_put .new, AMap.set_ne _ _ (Ne.symm hac), accountOf_new]; rfl

end Nimiq.Accounts
