import Verif.Accounts.ContractProps
import Verif.Accounts.PruneProps
/-!
# C95, C96: account equality, and what the errors of Push say
-/
namespace Nimiq.Accounts.Spec
open Wire

/-- What an account can spend at a height: for a vesting account the unlocked amount, otherwise the balance. -/
def spendable (E : Env) (height : UInt32) : Account → UInt64
  | .basic a => a.value
  | .vesting c => amountUnlocked E c height
  | .htlc c => c.value

/-- What a transaction takes from its sender: value and fee (computed modulo `2^64`) from a basic account, the value from a
contract. -/
def taken (tx : Tx) : Account → Nat
  | .basic _ => (value tx + fee tx) % 2 ^ 64
  | .vesting _ => value tx
  | .htlc _ => value tx

/-- Why the proof `p` does not unlock the HTLC `c`, for each error. -/
def HTLCReason (c : HTLCAccount) (height : UInt32) (p : Bytes) : Err → Prop
  | .missingProof => p = []
  | .badProofType t => p.head? = some t ∧ t ≠ 1 ∧ t ≠ 2 ∧ t ≠ 3
  | .htlcExpired => p.head? = some 1 ∧ c.timeout < height
  | .htlcNotExpired => p.head? = some 3 ∧ height ≤ c.timeout
  | .htlcHashMismatch => p.head? = some 1 ∧ (p[1]? ≠ some c.hash.algorithm ∨ (p.drop 3).take 32 ≠ c.hash.bytes.val)
  | .eof | .notFullyRead | .badSignature => True
  | _ => False

/-- `e` is a true statement about the block `height`, `body` and the accounts `acc`. -/
inductive Culprit (E : Env) (height : UInt32) (body : Body) (acc : Addr → Account) : Err → Prop
  /-- Some transaction takes `sp` while its sender can only spend `av`. -/
  | overspend (tx : Tx) (av sp : UInt64) : tx ∈ body.txs → av = spendable E height (acc (tx.getSender E.H).1) →
      sp.toNat = taken tx (acc (tx.getSender E.H).1) → av < sp → Culprit E height body acc (.overspend av sp)
  /-- Some transaction from a vesting account has no signature proof of the owner. -/
  | vesting (t : ExtendedTx) (c : VestingAccount) (e : Err) : .extended t ∈ body.txs →
      acc ((Tx.extended t).getSender E.H).1 = .vesting c → ¬ ProofOf E.H t.proof c.owner →
      e = .eof ∨ e = .notFullyRead ∨ e = .badSignature → Culprit E height body acc e
  /-- Some transaction from an HTLC has no proof that unlocks it. -/
  | htlc (t : ExtendedTx) (c : HTLCAccount) (e : Err) : .extended t ∈ body.txs →
      acc ((Tx.extended t).getSender E.H).1 = .htlc c → ¬ HTLCProof E.H c height t.proof →
      HTLCReason c height t.proof e → Culprit E height body acc e
  /-- Some transaction declares a type of the sender that is not the account's. -/
  | sender (tx : Tx) : tx ∈ body.txs → (tx.getSender E.H).2 ≠ (acc (tx.getSender E.H).1).type →
      Culprit E height body acc (.typeMismatch (tx.getSender E.H).2 (acc (tx.getSender E.H).1).type)
  /-- Some transaction declares a type of the recipient that is not the account's. -/
  | recipient (tx : Tx) : tx ∈ body.txs → tx.getRecipient.2 ≠ (acc tx.getRecipient.1).type →
      Culprit E height body acc (.typeMismatch tx.getRecipient.2 (acc tx.getRecipient.1).type)
  /-- The miner's account is a contract. -/
  | miner : (acc body.minerAddr).type ≠ 0 → Culprit E height body acc (.typeMismatch 0 (acc body.minerAddr).type)
  /-- Some transaction creates a contract of a type that does not exist. -/
  | contractType (t : ExtendedTx) : .extended t ∈ body.txs → t.flags &&& 1 ≠ 0 → t.recipientType ≠ 1 → t.recipientType ≠ 2 →
      Culprit E height body acc (.invalidForRecipient t.recipient)
  /-- Some transaction creates a contract with data that describe none. -/
  | contractData (t : ExtendedTx) (e : Err) : .extended t ∈ body.txs → t.flags &&& 1 ≠ 0 →
      t.recipientType = 1 ∧ (e = .badVestingData ∧ t.data.length ∉ [24, 36, 44] ∨ e = .eof ∨ e = .notFullyRead) ∨
      t.recipientType = 2 ∧ (e = .badHashCount ∨ e = .eof ∨ e = .notFullyRead) →
      (∀ bal x, ¬ NewContract t bal x) → Culprit E height body acc e
  /-- An emptied contract that sent something is not on the prune list. -/
  | pruneMissing (tx : Tx) : tx ∈ body.txs → (acc (tx.getSender E.H).1).type ≠ 0 → funds (acc (tx.getSender E.H).1) = 0 →
      listed body.pruned (tx.getSender E.H).1 = none → Culprit E height body acc (.pruneMissing (tx.getSender E.H).1)
  /-- An emptied contract that sent something is on the prune list with another content. -/
  | pruneAltered (tx : Tx) (x : Option Account) : tx ∈ body.txs → (acc (tx.getSender E.H).1).type ≠ 0 →
      funds (acc (tx.getSender E.H).1) = 0 → listed body.pruned (tx.getSender E.H).1 = some x →
      x ≠ some (acc (tx.getSender E.H).1) → Culprit E height body acc (.pruneAltered (tx.getSender E.H).1)
  /-- An address on the prune list sent nothing, or is not an emptied contract. -/
  | pruneEarly (a : Addr) : listed body.pruned a ≠ none →
      (∀ tx ∈ body.txs, (tx.getSender E.H).1 ≠ a) ∨ (acc a).type = 0 ∨ funds (acc a) ≠ 0 →
      Culprit E height body acc (.pruneEarly a)

end Nimiq.Accounts.Spec

namespace Nimiq.Accounts
open Beserial Beserial.Spec Wire Spec

variable {E : Env} {n n' : Node}

/-! ## Which errors the decoder reports for the types at hand -/

mutual
/-- Types made of numbers, byte arrays, structs and codecs that only fail at the end of the input. -/
def EofOnly : Ty → Prop
  | .num _ => True
  | .byteArr _ => True
  | .struct fs => EofOnlyFields fs
  | .custom c => ∀ prev d e, c.dec prev d = .err e → e = .eof
  | _ => False
def EofOnlyFields : Fields → Prop
  | .nil => True
  | .cons _ t fs => EofOnly t ∧ EofOnlyFields fs
end

mutual
theorem decode_eof (lim : Nat → Bool) : (t : Ty) → (h : EofOnly t) → ∀ prev ts d e r, decode lim t prev ts d = .err e r → e = .eof
  | .num k, _, prev, ts, d, e, r, he => by
    rw [decode] at he
    split at he
    · cases he; rfl
    · cases he
  | .byteArr n, _, prev, ts, d, e, r, he => by
    rw [decode] at he
    split at he
    · cases he; rfl
    · cases he
  | .struct fs, h, prev, ts, d, e, r, he => by
    rw [decode] at he
    rw [EofOnly] at h
    exact decodeFields_eof lim fs h prev d e r he
  | .custom c, h, prev, ts, d, e, r, he => by
    rw [decode] at he
    rw [EofOnly] at h
    unfold runCustom at he
    split at he
    · split at he <;> cases he
    · rename_i e' h'
      cases he
      exact h _ _ _ h'
    · cases he
  | .bool, h, _, _, _, _, _, _ => by simp [EofOnly] at h
  | .str, h, _, _, _, _, _, _ => by simp [EofOnly] at h
  | .byteSlice, h, _, _, _, _, _, _ => by simp [EofOnly] at h
  | .arr _ _, h, _, _, _, _, _, _ => by simp [EofOnly] at h
  | .slice _, h, _, _, _, _, _, _ => by simp [EofOnly] at h
  | .ptr _, h, _, _, _, _, _, _ => by simp [EofOnly] at h
  | .unsupported _ _, h, _, _, _, _, _, _ => by simp [EofOnly] at h
theorem decodeFields_eof (lim : Nat → Bool) : (fs : Fields) → (h : EofOnlyFields fs) → ∀ prev d e r,
    decodeFields lim fs prev d = .err e r → e = .eof
  | .nil, _, prev, d, e, r, he => by rw [decodeFields] at he; cases he
  | .cons tag t fs, h, prev, d, e, r, he => by
    rw [EofOnlyFields] at h
    rw [decodeFields] at he
    split at he
    · cases he
    · split at he
      · cases hr : decodeFields lim fs prev.2 ‹_› with
        | ok v r' => rw [hr] at he; cases he
        | err e' r' =>
          rw [hr] at he
          cases he
          exact decodeFields_eof lim fs h.2 _ _ _ _ hr
        | panic => rw [hr] at he; cases he
      · rename_i h'
        cases he
        exact decode_eof lim t h.1 _ _ _ _ _ h'
      · cases he
end

theorem full_eof {t : Ty} (h : EofOnly t) {prev : t.Val} {d : Bytes} {e : Err} (he : UnmarshalFull t prev d = .err e) :
    e = .eof ∨ e = .notFullyRead := by
  unfold UnmarshalFull at he
  split at he
  · split at he
    · cases he; exact .inr rfl
    · cases he
  · rename_i h'
    cases he
    exact .inl (decode_eof _ t h _ _ _ _ _ h')
  · cases he

theorem merkle_eof (prev : MerklePath) (d : Bytes) (e : Err) (h : merklePath.dec prev d = .err e) : e = .eof := by
  show e = .eof
  have h : MerklePath.dec d = .err e := h
  unfold MerklePath.dec at h
  split at h
  · split at h
    · cases h; rfl
    · cases h
  · rename_i h'
    cases h
    unfold BitSet.dec at h'
    split at h'
    · cases h'; rfl
    · split at h'
      · cases h'; rfl
      · cases h'
  · cases h

theorem hash_eof (prev : Hash) (d : Bytes) (e : Err) (h : Wire.hash.dec prev d = .err e) : e = .eof := by
  cases d with
  | nil => cases h; rfl
  | cons a b =>
    have h : (if b.length < 32 then (.err .eof : Out (Nat × Hash)) else .ok (1 + 32, ⟨a, BArr.copy 32 b⟩)) = .err e := h
    split at h
    · cases h; rfl
    · cases h

theorem sigProof_eof : EofOnly SignatureProof.ty := by
  simp only [SignatureProof.ty, EofOnly, EofOnlyFields, and_self, and_true, true_and]
  exact merkle_eof

theorem bind_err {α β : Type} {x : Out α} {f : α → Out β} {e : Err} :
    (x >>= f) = .err e ↔ x = .err e ∨ ∃ a, x = .ok a ∧ f a = .err e := by
  cases x with
  | ok a => simp [show (Out.ok a >>= f) = f a from rfl]
  | err e' => simp [show ((Out.err e' : Out α) >>= f) = .err e' from rfl]
  | panic => simp [show ((Out.panic : Out α) >>= f) = .panic from rfl]

theorem root_no_err (H : Bytes → Hash32) (br : BitSet) : ∀ (hs : List Hash32) (i : Nat) (root : Hash32) (e : Err),
    computeRootLoop H br i root hs ≠ .err e := by
  intro hs
  induction hs with
  | nil => intro i root e h; rw [computeRootLoop] at h; cases h
  | cons h hs ih =>
    intro i root e he
    rw [computeRootLoop] at he
    split at he
    · exact ih _ _ _ he
    · exact ih _ _ _ he
    · rename_i h'
      unfold BitSet.bit at h'
      split at h' <;> cases h'
    · cases he

theorem signer_no_err (H : Bytes → Hash32) (s : SignatureProof) (e : Err) : s.signerAddress H ≠ .err e := by
  unfold SignatureProof.signerAddress
  split
  · intro h; cases h
  · rename_i h'
    exact absurd h' (root_no_err _ _ _ _ _ _)
  · intro h; cases h

theorem asExtendedPtr_err (tx : Tx) (e : Err) : asExtendedPtr tx ≠ .err e := by
  cases tx <;> intro h <;> cases h

/-! ## Debits -/

theorem vestingOutgoing_err {c : VestingAccount} {tx : Tx} {height : UInt32} {e : Err}
    (h : vestingOutgoing E c tx height = .err e) : ∃ t, tx = .extended t ∧
      ((∃ sp, e = .overspend (amountUnlocked E c height) sp ∧ sp = t.value ∧ amountUnlocked E c height < sp) ∨
       ((e = .eof ∨ e = .notFullyRead ∨ e = .badSignature) ∧ ¬ ProofOf E.H t.proof c.owner)) := by
  have hn : ∀ x, vestingOutgoing E c tx height ≠ .ok x := by rw [h]; intro x hx; cases hx
  simp only [vestingOutgoing, bind_err] at h
  rcases h with h | ⟨t, ht, h⟩
  · exact absurd h (asExtendedPtr_err _ _)
  · have ht := asExtendedPtr_ok ht
    subst ht
    refine ⟨t, rfl, ?_⟩
    split at h
    · rename_i hv
      cases h
      exact .inl ⟨t.value, rfl, rfl, hv⟩
    · rename_i hv
      right
      refine ⟨?_, fun hp => hn _ (vestingOutgoing_iff.mpr ⟨t, rfl, UInt64.not_lt.mp hv, hp, rfl⟩)⟩
      simp only [bind_err] at h
      rcases h with h | ⟨v, _, h | ⟨sg, _, h⟩⟩
      · rcases full_eof sigProof_eof h with h | h
        · exact .inl h
        · exact .inr (.inl h)
      · exact absurd h (signer_no_err _ _ _)
      · split at h
        · cases h; exact .inr (.inr rfl)
        · cases h

theorem htlcRegular_eof : EofOnly htlcRegularTy := by
  simp only [htlcRegularTy, EofOnly, EofOnlyFields, sigProof_eof, and_self]
theorem htlcEarly_eof : EofOnly htlcEarlyTy := by
  simp only [htlcEarlyTy, EofOnly, EofOnlyFields, sigProof_eof, and_self]
theorem htlcTimeout_eof : EofOnly htlcTimeoutTy := by
  simp only [htlcTimeoutTy, EofOnly, EofOnlyFields, sigProof_eof, and_self]

theorem reason_eof {c : HTLCAccount} {height : UInt32} {p : Bytes} {e : Err} (h : e = .eof ∨ e = .notFullyRead) :
    HTLCReason c height p e := by
  rcases h with rfl | rfl <;> trivial

theorem htlcOutgoing_err {c : HTLCAccount} {tx : Tx} {height : UInt32} {e : Err}
    (h : htlcOutgoing E c tx height = .err e) : ∃ t, tx = .extended t ∧
      ((∃ sp, e = .overspend c.value sp ∧ sp = t.value ∧ c.value < sp) ∨
       (HTLCReason c height t.proof e ∧ ¬ HTLCProof E.H c height t.proof)) := by
  have hn : ∀ x, htlcOutgoing E c tx height ≠ .ok x := by rw [h]; intro x hx; cases hx
  simp only [htlcOutgoing, bind_err] at h
  rcases h with h | ⟨t, ht, h⟩
  · exact absurd h (asExtendedPtr_err _ _)
  · have ht := asExtendedPtr_ok ht
    subst ht
    refine ⟨t, rfl, ?_⟩
    split at h
    · rename_i hv
      cases h
      exact .inl ⟨t.value, rfl, rfl, hv⟩
    · rename_i hv
      right
      refine ⟨?_, fun hp => hn _ (htlcOutgoing_iff.mpr ⟨t, rfl, UInt64.not_lt.mp hv, hp, rfl⟩)⟩
      clear hn
      split at h
      · rename_i hp
        cases h; exact hp
      · rename_i ty p hp
        rw [hp]
        split at h
        · rename_i h1
          subst h1
          split at h
          · rename_i hto
            cases h; exact ⟨rfl, hto⟩
          · simp only [bind_err] at h
            rcases h with h | ⟨v, hd, h⟩
            · exact reason_eof (full_eof htlcRegular_eof h)
            · split at h
              · rename_i hm
                cases h
                obtain ⟨_, hb⟩ := (htlcRegular_full v _).mp hd
                refine ⟨rfl, ?_⟩
                rw [hb]
                rcases hm with hm | hm
                · left
                  simpa using hm
                · right
                  have hl := v.2.2.1.property
                  simp only [List.drop_succ_cons, List.drop_zero, List.append_assoc]
                  rw [List.take_append_of_le_length (by omega), List.take_of_length_le (by omega)]
                  exact fun hx => hm (Subtype.ext hx)
              · simp only [bind_err] at h
                rcases h with h | ⟨s, _, h⟩
                · exact absurd h (signer_no_err _ _ _)
                · split at h
                  · cases h; trivial
                  · cases h
        · rename_i h1
          split at h
          · rename_i h2
            subst h2
            simp only [bind_err] at h
            rcases h with h | ⟨v, hd, h | ⟨s, _, h⟩⟩
            · exact reason_eof (full_eof htlcEarly_eof h)
            · exact absurd h (signer_no_err _ _ _)
            · split at h
              · cases h; trivial
              · simp only [bind_err] at h
                rcases h with h | ⟨s, _, h⟩
                · exact absurd h (signer_no_err _ _ _)
                · split at h
                  · cases h; trivial
                  · cases h
          · rename_i h2
            split at h
            · rename_i h3
              subst h3
              split at h
              · rename_i hto
                cases h; exact ⟨rfl, hto⟩
              · simp only [bind_err] at h
                rcases h with h | ⟨v, hd, h | ⟨s, _, h⟩⟩
                · exact reason_eof (full_eof htlcTimeout_eof h)
                · exact absurd h (signer_no_err _ _ _)
                · split at h
                  · cases h; trivial
                  · cases h
            · rename_i h3
              cases h
              exact ⟨rfl, h1, h2, h3⟩

/-! ## Creation -/

theorem initVesting_err {t : ExtendedTx} {h : UInt32} {bal : UInt64} {e : Err} (he : initVesting (.extended t) h bal = .err e) :
    e = .badVestingData ∧ t.data.length ∉ [24, 36, 44] ∨ e = .eof ∨ e = .notFullyRead := by
  simp only [initVesting, bind_err] at he
  rcases he with he | ⟨t', ht, he⟩
  · exact absurd he (asExtendedPtr_err _ _)
  · have ht := asExtendedPtr_ok ht
    cases ht
    split at he
    · simp only [bind_err] at he
      rcases he with he | ⟨v, _, he⟩
      · exact .inr (full_eof (by simp [vestingParams24, EofOnly, EofOnlyFields]) he)
      · cases he
    · rename_i h1
      split at he
      · simp only [bind_err] at he
        rcases he with he | ⟨v, _, he⟩
        · exact .inr (full_eof (by simp [vestingParams36, EofOnly, EofOnlyFields]) he)
        · cases he
      · rename_i h2
        split at he
        · simp only [bind_err] at he
          rcases he with he | ⟨v, _, he⟩
          · exact .inr (full_eof (by simp [vestingParams44, EofOnly, EofOnlyFields]) he)
          · cases he
        · rename_i h3
          cases he
          exact .inl ⟨rfl, by simp [h1, h2, h3]⟩

theorem initHTLC_err {t : ExtendedTx} {h : UInt32} {bal : UInt64} {e : Err} (he : initHTLC (.extended t) h bal = .err e) :
    e = .badHashCount ∨ e = .eof ∨ e = .notFullyRead := by
  simp only [initHTLC, bind_err] at he
  rcases he with he | ⟨t', ht, he⟩
  · exact absurd he (asExtendedPtr_err _ _)
  · have ht := asExtendedPtr_ok ht
    cases ht
    rcases he with he | ⟨v, _, he⟩
    · refine .inr (full_eof ?_ he)
      simp only [htlcParams, EofOnly, EofOnlyFields, and_self, and_true, true_and]
      exact hash_eof
    · split at he
      · cases he; exact .inl rfl
      · cases he

theorem newContract_bal {t : ExtendedTx} {bal bal' : UInt64} {x : Account} (h : NewContract t bal x) :
    ∃ x', NewContract t bal' x' := by
  cases x with
  | basic a => exact absurd h (by simp [NewContract])
  | vesting c =>
    obtain ⟨h1, h2⟩ := h
    generalize hd : t.data = d at h2
    cases h2 with
    | short o s => exact ⟨.vesting _, h1, by rw [hd]; exact .short o s⟩
    | medium o a b c => exact ⟨.vesting _, h1, by rw [hd]; exact .medium o a b c⟩
    | long o a b c d => exact ⟨.vesting _, h1, by rw [hd]; exact .long o a b c d⟩
  | htlc c =>
    obtain ⟨h1, h2⟩ := h
    generalize hd : t.data = d at h2
    cases h2 with
    | mk s r hs co ti hc => exact ⟨.htlc _, h1, by rw [hd]; exact .mk s r hs co ti hc⟩

/-! ## Push -/

theorem M.bind_err {σ α β : Type} {x : M σ α} {f : α → M σ β} {s s' : σ} {e : Err} :
    (x >>= f) s = (.err e, s') ↔ x s = (.err e, s') ∨ ∃ a s1, x s = (.ok a, s1) ∧ f a s1 = (.err e, s') := by
  rw [M.bind_eq]
  rcases hx : x s with ⟨o, s1⟩
  cases o with
  | ok a => simp
  | err e' => simp
  | panic => simp

theorem forTxs_err {f : Tx → M AMap Unit} {e : Err} : ∀ {txs : List Tx} {m m' : AMap}, forTxs txs f m = (.err e, m') →
    ∃ tx ∈ txs, ∃ m1, f tx m1 = (.err e, m') := by
  intro txs
  induction txs with
  | nil => intro m m' h; rw [forTxs_nil] at h; cases h
  | cons tx txs ih =>
    intro m m' h
    unfold forTxs at h
    rcases M.bind_err.mp h with h | ⟨_, m1, _, h⟩
    · exact ⟨tx, List.mem_cons_self, m, h⟩
    · obtain ⟨tx', h1, h2⟩ := ih h
      exact ⟨tx', List.mem_cons_of_mem _ h1, h2⟩

theorem pushTx_err {a : Addr} {ty : UInt8} {tx : Tx} {h : UInt32} {op : AccountOp} {m m' : AMap} {e : Err}
    (he : pushTx mapLedger a ty tx h op m = (.err e, m')) :
    (e = .typeMismatch ty (m' a).type ∧ ty ≠ 0xFF ∧ ty ≠ (m' a).type) ∨ op (m' a) tx h = .err e := by
  rw [pushTx_map] at he
  split at he
  · rename_i hc
    cases he; exact .inl ⟨rfl, hc⟩
  · split at he
    · cases he
    · rename_i h'
      cases he
      exact .inr h'
    · cases he

theorem applyIncoming_err (a : Account) (tx : Tx) (h : UInt32) (e : Err) : applyIncoming a tx h ≠ .err e := by
  cases a <;> intro he <;> cases he

theorem senders_err {height : UInt32} {body : Body} {m m' : AMap} {e : Err}
    (h : pushSenders E mapLedger height body m = (.err e, m')) : Culprit E height body m' e := by
  rw [pushSenders_eq] at h
  obtain ⟨tx, ht, m1, h⟩ := forTxs_err h
  unfold senderStep at h
  rw [content_sender, content_senderType] at h
  rcases pushTx_err h with ⟨rfl, _, h2⟩ | h
  · exact .sender tx ht h2
  · cases ha : m' (tx.getSender E.H).1 with
    | basic a =>
      rw [ha] at h
      simp only [applyOutgoing, basicOutgoing] at h
      split at h
      · rename_i hc
        cases h
        refine .overspend tx _ _ ht (by rw [ha]; rfl) ?_ hc
        rw [ha]
        simp [taken, value, fee, UInt64.toNat_add]
      · cases h
    | vesting c =>
      rw [ha] at h
      obtain ⟨t, rfl, ⟨sp, rfl, h2, h3⟩ | ⟨h1, h2⟩⟩ := vestingOutgoing_err h
      · refine .overspend _ _ _ ht (by rw [ha]; rfl) ?_ h3
        rw [ha, h2]; rfl
      · exact .vesting t c e ht ha h2 h1
    | htlc c =>
      rw [ha] at h
      obtain ⟨t, rfl, ⟨sp, rfl, h2, h3⟩ | ⟨h1, h2⟩⟩ := htlcOutgoing_err h
      · refine .overspend _ _ _ ht (by rw [ha]; rfl) ?_ h3
        rw [ha, h2]; rfl
      · exact .htlc t c e ht ha h2 h1

theorem recipients_err {height : UInt32} {body : Body} {m m' : AMap} {e : Err}
    (h : pushRecipients E mapLedger height body m = (.err e, m')) : Culprit E height body m' e := by
  rw [pushRecipients_eq] at h
  obtain ⟨tx, ht, m1, h⟩ := forTxs_err h
  unfold recipientStep at h
  rw [content_recipient, content_recipientType] at h
  rcases pushTx_err h with ⟨rfl, h1, h2⟩ | h
  · split at h1
    · rename_i hc
      rw [if_pos hc] at h2 ⊢
      exact .recipient tx ht h2
    · exact absurd rfl h1
  · exact absurd h (applyIncoming_err _ _ _ _)

theorem creates_err {height : UInt32} {body : Body} {m m' : AMap} {e : Err}
    (h : createContracts E mapLedger height body m = (.err e, m')) : Culprit E height body m' e := by
  rw [createContracts_eq] at h
  obtain ⟨tx, ht, m1, h⟩ := forTxs_err h
  rw [createStep_map] at h
  split at h
  · rename_i hc
    cases tx with
    | basic t => simp [creates] at hc
    | extended t =>
      have hf : t.flags &&& 1 ≠ 0 := by simpa [creates] using hc
      have hno : ∀ x, contractOf (.extended t) height (balance (m1 t.recipient)) ≠ .ok x := by
        intro x hx
        have : contractOf (.extended t) height (balance (m1 (Tx.extended t).getRecipient.1)) = .ok x := hx
        rw [this] at h; cases h
      have hbad : ∀ bal x, ¬ NewContract t bal x := by
        intro bal x hx
        obtain ⟨x', hx'⟩ := newContract_bal (bal' := balance (m1 t.recipient)) hx
        refine hno x' ((contractOf_iff hc).mpr ?_)
        exact ⟨t, rfl, hx'⟩
      split at h
      · cases h
      · rename_i e' h'
        cases h
        unfold contractOf at h'
        split at h'
        · rename_i h1
          exact .contractData t _ ht hf (.inl ⟨h1, initVesting_err h'⟩) hbad
        · rename_i h1
          split at h'
          · rename_i h2
            exact .contractData t _ ht hf (.inr ⟨h2, initHTLC_err h'⟩) hbad
          · rename_i h2
            cases h'
            exact .contractType t ht hf h1 h2
      · cases h
  · cases h

theorem pruneLoop_err {e : Err} : ∀ {txs : List Tx} {pm : PruneMap} {m m' : AMap},
    pruneLoop E mapLedger txs pm m = (.err e, m') → (∀ a, m' a = m a ∨ m' a = initialAccount) ∧
      ∃ tx ∈ txs, Dead (m' (tx.getSender E.H).1) ∧
      ((e = .pruneMissing (tx.getSender E.H).1 ∧ pm.get (tx.getSender E.H).1 = none) ∨
       ∃ x, e = .pruneAltered (tx.getSender E.H).1 ∧ pm.get (tx.getSender E.H).1 = some x ∧ x ≠ some (m' (tx.getSender E.H).1)) := by
  intro txs
  induction txs with
  | nil => intro pm m m' h; cases h
  | cons tx txs ih =>
    intro pm m m' h
    rw [pruneLoop_cons] at h
    split at h
    · obtain ⟨h0, t, h1, h2⟩ := ih h
      exact ⟨h0, t, List.mem_cons_of_mem _ h1, h2⟩
    · rename_i hd
      have hd := not_not.mp hd
      split at h
      · rename_i hg
        cases h
        exact ⟨fun _ => .inl rfl, tx, List.mem_cons_self, hd, .inl ⟨rfl, hg⟩⟩
      · rename_i x hg
        split at h
        · obtain ⟨h0, t, h1, h2, h3⟩ := ih h
          refine ⟨fun a => ?_, t, List.mem_cons_of_mem _ h1, h2, ?_⟩
          · rcases h0 a with h | h
            · by_cases ha : a = (tx.getSender E.H).1
              · subst ha; rw [AMap.set_same] at h; exact .inr h
              · rw [AMap.set_ne _ _ ha] at h; exact .inl h
            · exact .inr h
          · have hne : (t.getSender E.H).1 ≠ (tx.getSender E.H).1 := by
              intro he
              refine dead_initial ?_
              have := h0 (t.getSender E.H).1
              rw [he, AMap.set_same] at this
              rw [he] at h2
              rcases this with h | h <;> rwa [h] at h2
            rw [PruneMap.get_del, if_neg hne] at h3
            exact h3
        · rename_i hx
          cases h
          exact ⟨fun _ => .inl rfl, tx, List.mem_cons_self, hd, .inr ⟨x, rfl, hg, hx⟩⟩

theorem PruneMap.get_mem {pm : PruneMap} {a : Addr} (h : a ∈ pm.map (·.1)) : pm.get a ≠ none := by
  obtain ⟨⟨k, v⟩, h1, rfl⟩ := List.mem_map.mp h
  unfold PruneMap.get
  rw [ne_eq, Option.map_eq_none_iff, List.find?_eq_none]
  exact fun h => h _ h1 (by simp)

theorem prune_err {height : UInt32} {body : Body} {m m' : AMap} {e : Err}
    (h : pruneAccounts E mapLedger body m = (.err e, m')) : Culprit E height body m' e := by
  unfold pruneAccounts at h
  have hf : ∀ a, Dead a → funds a = 0 := fun a ha => by rw [funds_eq, ha.1]; rfl
  rcases M.bind_err.mp h with h | ⟨pm, m1, h1, h2⟩
  · obtain ⟨_, tx, ht, hd, ⟨rfl, hg⟩ | ⟨x, rfl, hg, hx⟩⟩ := pruneLoop_err h
    · rw [pruneMap_get] at hg
      exact .pruneMissing tx ht hd.2 (hf _ hd) hg
    · rw [pruneMap_get] at hg
      exact .pruneAltered tx x ht hd.2 (hf _ hd) hg hx
  · obtain ⟨i1, i2, i3⟩ := pruneLoop_ok h1
    split at h2
    · rename_i hne
      cases h2
      generalize hp : E.pick (pm.map (·.1)) hne = p
      obtain ⟨a, ha⟩ := p
      have hg := PruneMap.get_mem ha
      rw [i3 a] at hg
      have hc : ¬ (Sends E.H body.txs a ∧ Dead (m a)) := by
        intro hc; rw [if_pos hc] at hg; exact hg rfl
      rw [if_neg hc, pruneMap_get] at hg
      refine .pruneEarly a hg ?_
      have hm : m' a = m a := by rw [i1]; unfold afterPrune; rw [if_neg hc]
      by_cases hs : Sends E.H body.txs a
      · right
        by_cases ht : (m' a).type = 0
        · exact .inl ht
        · refine .inr fun hfu => hc ⟨hs, ?_, by rwa [hm] at ht⟩
          rw [hm, funds_eq] at hfu
          exact UInt64.toNat_inj.mp hfu
      · left
        intro tx ht he
        exact hs ⟨tx, ht, he⟩
    · cases h2

theorem push_err {block : Block} {body : Body} {m m' : AMap} {e : Err} (hb : block.body = some body)
    (h : push E mapLedger block m = (.err e, m')) : Culprit E block.height body m' e := by
  unfold push at h
  rw [hb] at h
  simp only [] at h
  rcases M.bind_err.mp h with h | ⟨_, m1, _, h⟩
  · exact senders_err h
  rcases M.bind_err.mp h with h | ⟨_, m2, _, h⟩
  · exact recipients_err h
  rcases M.bind_err.mp h with h | ⟨_, m3, _, h⟩
  · exact creates_err h
  rcases M.bind_err.mp h with h | ⟨_, m4, _, h⟩
  · exact prune_err h
  rw [inherents_map] at h
  split at h
  · cases h
  · split at h
    · cases h
    · rename_i ht
      cases h
      exact .miner ht

/-- C96. An error of Push is a true statement about the block and the accounts Push leaves behind. -/
theorem C96_truthful (hn : Reach E n) (block : Block) (body : Body) (hb : block.body = some body) (e : Err)
    (h : Push E block n = (.err e, n')) : Culprit E block.height body (accountOf n') e := by
  have := hn.push_eq block
  rw [h] at this
  exact push_err hb (Prod.ext this.1.symm this.2.symm)

/-- C96. `ApplyOutgoingTx` reports overspending exactly when the transaction takes more than the account can spend, and with
these two amounts; a contract first insists on the extended format (it panics otherwise, see C64). -/
theorem C96_overspend_iff (E : Env) (acc : Account) (tx : Tx) (height : UInt32) (av sp : UInt64)
    (hx : acc.type = 0 ∨ ∃ t, tx = .extended t) :
    applyOutgoing E acc tx height = .err (.overspend av sp) ↔
      av = spendable E height acc ∧ sp.toNat = taken tx acc ∧ av < sp := by
  cases acc with
  | basic a =>
    have ht : ∀ x : UInt64, x.toNat = taken tx (.basic a) ↔ x = tx.amount.1 + tx.amount.2 := by
      intro x
      rw [← UInt64.toNat_inj, UInt64.toNat_add]; rfl
    rw [ht]
    simp only [applyOutgoing, basicOutgoing, spendable]
    split
    · rename_i hc
      simp only [Out.err.injEq, Err.overspend.injEq]
      constructor
      · rintro ⟨rfl, rfl⟩; exact ⟨rfl, rfl, hc⟩
      · rintro ⟨rfl, rfl, _⟩; exact ⟨rfl, rfl⟩
    · rename_i hc
      simp only [reduceCtorEq, false_iff]
      rintro ⟨rfl, rfl, h⟩
      exact hc h
  | vesting c =>
    obtain ⟨t, rfl⟩ := hx.resolve_left (by simp [Account.type])
    have ht : ∀ x : UInt64, x.toNat = taken (.extended t) (.vesting c) ↔ x = t.value := by
      intro x
      rw [← UInt64.toNat_inj]; rfl
    rw [ht]
    constructor
    · intro h
      obtain ⟨t', e, ⟨sp', h1, h2, h3⟩ | ⟨h1, h2⟩⟩ := vestingOutgoing_err h
      · cases e; cases h1; exact ⟨rfl, h2, h3⟩
      · rcases h1 with h1 | h1 | h1 <;> cases h1
    · rintro ⟨rfl, rfl, h⟩
      show (if t.value > amountUnlocked E c height then _ else _) = _
      exact if_pos h
  | htlc c =>
    obtain ⟨t, rfl⟩ := hx.resolve_left (by simp [Account.type])
    have ht : ∀ x : UInt64, x.toNat = taken (.extended t) (.htlc c) ↔ x = t.value := by
      intro x
      rw [← UInt64.toNat_inj]; rfl
    rw [ht]
    constructor
    · intro h
      obtain ⟨t', e, ⟨sp', h1, h2, h3⟩ | ⟨h1, h2⟩⟩ := htlcOutgoing_err h
      · cases e; cases h1; exact ⟨rfl, h2, h3⟩
      · cases h1
    · rintro ⟨rfl, rfl, h⟩
      show (if t.value > c.value then _ else _) = _
      exact if_pos h

/-- A payment of 1 from an address that has nothing: Push reports that 1 was to be spent and 0 was there. -/
example (E : Env) (c : Addr) (hash : Hash32) (sig : BArr 64) :
    ∃ n', Push E ⟨1, hash, some ⟨c, [.basic ⟨BArr.zero 32, c, 1, 0, 1, 42, sig⟩], []⟩⟩ newNode =
      (.err (.overspend 0 1), n') ∧ Reach E newNode := by
  have hr : Reach E newNode := .new
  have h := (hr.push_eq ⟨1, hash, some ⟨c, [.basic ⟨BArr.zero 32, c, 1, 0, 1, 42, sig⟩], []⟩⟩).1
  have hp : (push E mapLedger ⟨1, hash, some ⟨c, [.basic ⟨BArr.zero 32, c, 1, 0, 1, 42, sig⟩], []⟩⟩ (accountOf newNode)).1 =
      .err (.overspend 0 1) := by
    unfold push
    simp only []
    rw [M.bind_eq, pushSenders_eq]
    unfold forTxs
    rw [M.bind_eq]
    unfold senderStep
    rw [pushTx_map, accountOf_new]
    simp [Tx.content, Account.type, applyOutgoing, basicOutgoing, Tx.amount]
  rw [hp] at h
  exact ⟨_, Prod.ext h rfl, hr⟩

/-! ## C95 -/

/-- C95. `AccountEq` holds of two accounts iff both are there and have the same encoding, and iff they are the same account;
in particular it is symmetric and transitive, and reflexive but for nil. -/
theorem C95_account_eq (x y : Option Account) :
    (accountEq x y = true ↔ ∃ a b, x = some a ∧ y = some b ∧ accountLayout a = accountLayout b) ∧
    (accountEq x y = true ↔ x = y ∧ x ≠ none) := by
  have key : accountEq x y = true ↔ x = y ∧ x ≠ none := by
    cases y with
    | none =>
      cases x with
      | none => simp [accountEq]
      | some a => simp [accountEq]
    | some b =>
      rw [accountEq_iff]
      constructor
      · rintro rfl; exact ⟨rfl, by simp⟩
      · exact fun h => h.1
  refine ⟨?_, key⟩
  rw [key]
  constructor
  · rintro ⟨rfl, h⟩
    cases x with
    | none => exact absurd rfl h
    | some a => exact ⟨a, a, rfl, rfl, rfl⟩
  · rintro ⟨a, b, rfl, rfl, h⟩
    refine ⟨?_, by simp⟩
    have h1 := (C40_round_trip a [] []).2
    rw [h, (C40_round_trip b [] []).2] at h1
    simp only [Out.ok.injEq, Prod.mk.injEq] at h1
    exact h1.2.symm

example : accountEq (some (.basic ⟨5⟩)) (some (.basic ⟨5⟩)) = true ∧ accountEq none none = false := by decide

end Nimiq.Accounts
