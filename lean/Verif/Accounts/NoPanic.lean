import Verif.Accounts.Atomic
/-!
# C64: when Push panics
-/
namespace Nimiq.Accounts
open Beserial Beserial.Spec Wire Spec

variable {E : Env} {n n' : Node}

theorem out_bind_ne_panic {α β : Type} {x : Out α} {f : α → Out β} (h : x ≠ .panic) (hf : ∀ a, x = .ok a → f a ≠ .panic) :
    (x >>= f) ≠ .panic := by
  cases x with
  | ok a => exact hf a rfl
  | err e => exact fun h => nomatch h
  | panic => exact absurd rfl h

theorem full_ne_panic {t : Ty} (ht : Safe t) (prev : t.Val) (d : Bytes) : UnmarshalFull t prev d ≠ .panic := by
  have := decode_ne_panic noLimit d.length (fun _ _ => rfl) t {} prev d ht (Nat.le_refl _)
  unfold UnmarshalFull Unmarshal
  cases h : decode noLimit t prev {} d with
  | ok v rest => simp only []; split <;> exact fun h => nomatch h
  | err e r => exact fun h => nomatch h
  | panic => exact absurd h this

theorem proofBytes_length (s : SignatureProof) (h : WfProof s) :
    (proofBytes s).length = 97 + s.merklePath.branches.bits.length + 32 * s.merklePath.branches.len.toNat := by
  have h1 : s.publicKey.val.length = 32 := s.publicKey.property
  have h2 : s.signature.val.length = 64 := s.signature.property
  have h3 : ((s.merklePath.hashes.map (·.val)).flatten).length = 32 * s.merklePath.hashes.length := by
    generalize s.merklePath.hashes = l
    induction l with
    | nil => rfl
    | cons x l ih =>
      have : x.val.length = 32 := x.property
      rw [List.map_cons, List.flatten_cons, List.length_append, ih, this, List.length_cons]
      omega
  simp only [proofBytes, List.length_append, List.length_cons, h1, h2, h3, h.2]
  omega

theorem signer_ne_panic (H : Bytes → Hash32) (s : SignatureProof) (h : WfProof s) (hl : (proofBytes s).length < 8065) :
    s.signerAddress H ≠ .panic := by
  rw [proofBytes_length s h] at hl
  have hd := MerklePath.dec_spec s.merklePath h.1 h.2 []
  obtain ⟨bs, root, _, _, hr⟩ := C52_decoded H _ s.publicKey.val _ _ hd (by omega)
  unfold SignatureProof.signerAddress
  rw [hr]
  exact fun h => nomatch h

theorem htlcRegular_safe : Safe htlcRegularTy := by
  simp only [htlcRegularTy, Safe, SafeFields, fieldTags_none]
  exact ⟨by simp, trivial, by simp, trivial, by simp, trivial, by simp, trivial, by simp, signatureProof_safe, trivial⟩
theorem htlcEarly_safe : Safe htlcEarlyTy := by
  simp only [htlcEarlyTy, Safe, SafeFields, fieldTags_none]
  exact ⟨by simp, signatureProof_safe, by simp, signatureProof_safe, trivial⟩
theorem htlcTimeout_safe : Safe htlcTimeoutTy := by
  simp only [htlcTimeoutTy, Safe, SafeFields, fieldTags_none]
  exact ⟨by simp, signatureProof_safe, trivial⟩
theorem htlcParams_safe : Safe htlcParams := by
  simp only [htlcParams, Safe, SafeFields, fieldTags_none]
  exact ⟨by simp, trivial, by simp, trivial, by simp, lawful_safe hash_lawful, by simp, trivial, by simp, trivial, trivial⟩
theorem vestingParams24_safe : Safe vestingParams24 := by simp [vestingParams24, Safe, SafeFields]
theorem vestingParams36_safe : Safe vestingParams36 := by simp [vestingParams36, Safe, SafeFields]
theorem vestingParams44_safe : Safe vestingParams44 := by simp [vestingParams44, Safe, SafeFields]

theorem vesting_ne_panic {c : VestingAccount} {t : ExtendedTx} {height : UInt32} (hl : t.proof.length < 8065) :
    vestingOutgoing E c (.extended t) height ≠ .panic := by
  unfold vestingOutgoing
  refine out_bind_ne_panic (fun h => nomatch h) fun t' ht' => ?_
  cases ht'
  split
  · exact fun h => nomatch h
  refine out_bind_ne_panic (full_ne_panic signatureProof_safe _ _) fun v hv => ?_
  obtain ⟨w, hb⟩ := (sigProof_full _ _ _).mp hv
  refine out_bind_ne_panic (signer_ne_panic E.H _ w (by rw [← hb]; exact hl)) fun sg _ => ?_
  split <;> exact fun h => nomatch h

theorem htlc_ne_panic {c : HTLCAccount} {t : ExtendedTx} {height : UInt32} (hl : t.proof.length < 8065) :
    htlcOutgoing E c (.extended t) height ≠ .panic := by
  unfold htlcOutgoing
  refine out_bind_ne_panic (fun h => nomatch h) fun t' ht' => ?_
  cases ht'
  split
  · exact fun h => nomatch h
  generalize t.proof = p at *
  cases p with
  | nil => exact fun h => nomatch h
  | cons ty proof =>
    simp only []
    rw [List.length_cons] at hl
    split
    · split
      · exact fun h => nomatch h
      refine out_bind_ne_panic (full_ne_panic htlcRegular_safe _ _) fun v hv => ?_
      obtain ⟨w, hb⟩ := (htlcRegular_full _ _).mp hv
      split
      · exact fun h => nomatch h
      refine out_bind_ne_panic (signer_ne_panic E.H _ w ?_) fun sg _ => ?_
      · rw [hb] at hl
        simp only [List.length_cons, List.length_append] at hl
        omega
      · split <;> exact fun h => nomatch h
    split
    · refine out_bind_ne_panic (full_ne_panic htlcEarly_safe _ _) fun v hv => ?_
      obtain ⟨w1, w2, hb⟩ := (htlcEarly_full _ _).mp hv
      rw [hb, List.length_append] at hl
      refine out_bind_ne_panic (signer_ne_panic E.H _ w1 (by omega)) fun sg _ => ?_
      split
      · exact fun h => nomatch h
      refine out_bind_ne_panic (signer_ne_panic E.H _ w2 (by omega)) fun sg _ => ?_
      split <;> exact fun h => nomatch h
    split
    · split
      · exact fun h => nomatch h
      refine out_bind_ne_panic (full_ne_panic htlcTimeout_safe _ _) fun v hv => ?_
      obtain ⟨w1, hb⟩ := (htlcTimeout_full _ _).mp hv
      refine out_bind_ne_panic (signer_ne_panic E.H _ w1 (by rw [← hb]; omega)) fun sg _ => ?_
      split <;> exact fun h => nomatch h
    · exact fun h => nomatch h

/-- Creating a contract never panics. -/
theorem contractOf_ne_panic {tx : Tx} {height : UInt32} {bal : UInt64} (hc : creates tx = true) :
    contractOf tx height bal ≠ .panic := by
  cases tx with
  | basic t => cases hc
  | extended t =>
    unfold contractOf
    split
    · unfold initVesting
      refine out_bind_ne_panic (fun h => nomatch h) fun t' ht' => ?_
      cases ht'
      split
      · exact out_bind_ne_panic (full_ne_panic vestingParams24_safe _ _) fun _ _ h => nomatch h
      split
      · exact out_bind_ne_panic (full_ne_panic vestingParams36_safe _ _) fun _ _ h => nomatch h
      split
      · exact out_bind_ne_panic (full_ne_panic vestingParams44_safe _ _) fun _ _ h => nomatch h
      · exact fun h => nomatch h
    · split
      · unfold initHTLC
        refine out_bind_ne_panic (fun h => nomatch h) fun t' ht' => ?_
        cases ht'
        refine out_bind_ne_panic (full_ne_panic htlcParams_safe _ _) fun _ _ => ?_
        split <;> exact fun h => nomatch h
      · exact fun h => nomatch h

theorem forTxs_ne_panic {f : Tx → M AMap Unit} (P : AMap → Prop) : ∀ (txs : List Tx) (m : AMap), P m →
    (∀ tx ∈ txs, ∀ m, P m → (f tx m).1 ≠ .panic ∧ ((f tx m).1 = .ok () → P (f tx m).2)) →
    (forTxs txs f m).1 ≠ .panic := by
  intro txs
  induction txs with
  | nil => intro m _ _ h; cases h
  | cons tx txs ih =>
    intro m hm h
    rw [forTxs_cons]
    obtain ⟨h1, h2⟩ := h tx (List.mem_cons_self ..) m hm
    rcases hf : f tx m with ⟨o, m1⟩
    rw [hf] at h1 h2
    cases o with
    | ok u => exact ih m1 (h2 rfl) fun t ht => h t (List.mem_cons_of_mem _ ht)
    | err e => exact fun h => nomatch h
    | panic => exact absurd rfl h1

theorem pushTx_ne_panic {a : Addr} {ty : UInt8} {tx : Tx} {h : UInt32} {op : AccountOp} {m : AMap}
    (hop : ¬ (ty ≠ 0xFF ∧ ty ≠ (m a).type) → op (m a) tx h ≠ .panic) : (pushTx mapLedger a ty tx h op m).1 ≠ .panic := by
  rw [pushTx_map]
  split
  · exact fun h => nomatch h
  · rename_i hc
    have := hop hc
    cases ho : op (m a) tx h with
    | ok x => exact fun h => nomatch h
    | err e => exact fun h => nomatch h
    | panic => exact absurd ho this

/-- C64 (partial). Push returns normally (with or without an error) for every block with a body and a height of at least 1,
if no transaction pays into a contract with the contract's type or a type that disables the check, and every extended
transaction from a contract has a proof of less than 8065 bytes. -/
theorem C64_no_panic_partial (hn : Reach E n) (block : Block) (body : Body) (hb : block.body = some body)
    (h0 : block.height ≠ 0)
    (hrecv : ∀ tx ∈ body.txs, (accountOf n tx.getRecipient.1).type = 0 ∨
      ((tx.content E.H).flags &&& 0x01 = 0 ∧ tx.getRecipient.2 ≠ 0xFF ∧
        tx.getRecipient.2 ≠ (accountOf n tx.getRecipient.1).type))
    (hproof : ∀ t, .extended t ∈ body.txs → (accountOf n t.sender).type = 0 ∨ t.proof.length < 8065) :
    (Push E block n).1 ≠ .panic := by
  rw [(hn.push_eq block).1]
  generalize accountOf n = m at *
  have hsend : (pushSenders E mapLedger block.height body m).1 ≠ .panic := by
    rw [pushSenders_eq]
    refine forTxs_ne_panic (fun m' => ∀ a, (m' a).type = (m a).type) _ _ (fun _ => rfl) fun tx ht m' hm' => ⟨?_, ?_⟩
    · refine pushTx_ne_panic fun hty => ?_
      rw [content_sender] at hty ⊢
      rw [content_senderType] at hty
      cases hacc : m' (tx.getSender E.H).1 with
      | basic a =>
        show basicOutgoing a tx ≠ .panic
        unfold basicOutgoing
        simp only []
        split <;> exact fun h => nomatch h
      | vesting a =>
        cases tx with
        | basic t => rw [hacc] at hty; exact absurd ⟨by simp [Tx.getSender], by simp [Tx.getSender, Account.type]⟩ hty
        | extended t =>
          refine vesting_ne_panic ((hproof t ht).resolve_left ?_)
          rw [← hm']; show ¬ (m' t.sender).type = 0
          have : m' t.sender = .vesting a := hacc
          rw [this]; exact fun h => nomatch h
      | htlc a =>
        cases tx with
        | basic t => rw [hacc] at hty; exact absurd ⟨by simp [Tx.getSender], by simp [Tx.getSender, Account.type]⟩ hty
        | extended t =>
          refine htlc_ne_panic ((hproof t ht).resolve_left ?_)
          rw [← hm']; show ¬ (m' t.sender).type = 0
          have : m' t.sender = .htlc a := hacc
          rw [this]; exact fun h => nomatch h
    · intro hok a
      have := senderStep_iff.mp (Prod.ext hok rfl : senderStep E block.height tx m' = (.ok (), _))
      exact (congrArg (fun f : AMap => (f a).type) this.2).trans ((type_afterSenders ..).trans (hm' a))
  unfold push
  rw [hb]
  simp only []
  rw [M.bind_eq]
  rcases hs : pushSenders E mapLedger block.height body m with ⟨o, m1⟩
  rw [hs] at hsend
  cases o with
  | err e => exact fun h => nomatch h
  | panic => exact absurd rfl hsend
  | ok u =>
  simp only []
  have hm1 : ∀ a, (m1 a).type = (m a).type := by
    rw [pushSenders_eq] at hs
    intro a
    rw [(senders_iff.mp hs).2, type_afterSenders]
  have hr : (pushRecipients E mapLedger block.height body m1).1 ≠ .panic := by
    rw [pushRecipients_eq]
    refine forTxs_ne_panic (fun m' => ∀ a, (m' a).type = (m a).type) _ _ hm1 fun tx ht m' hm' => ⟨?_, ?_⟩
    · refine pushTx_ne_panic fun hty => ?_
      rw [content_recipient] at hty ⊢
      rw [content_recipientType] at hty
      rcases hrecv tx ht with h | ⟨h1, h2, h3⟩
      · rw [← hm'] at h
        cases hacc : m' tx.getRecipient.1 with
        | basic a => exact fun h => nomatch h
        | vesting a => rw [hacc] at h; cases h
        | htlc a => rw [hacc] at h; cases h
      · rw [if_pos h1] at hty
        rw [← hm'] at h3
        exact absurd ⟨h2, h3⟩ hty
    · intro hok a
      have := recipientStep_iff.mp (Prod.ext hok rfl : recipientStep E block.height tx m' = (.ok (), _))
      exact (congrArg (fun f : AMap => (f a).type) this.2).trans ((type_afterRecipients ..).trans (hm' a))
  rw [M.bind_eq]
  rcases hs2 : pushRecipients E mapLedger block.height body m1 with ⟨o, m2⟩
  rw [hs2] at hr
  cases o with
  | err e => exact fun h => nomatch h
  | panic => exact absurd rfl hr
  | ok u =>
  simp only []
  have hc : (createContracts E mapLedger block.height body m2).1 ≠ .panic := by
    rw [createContracts_eq]
    refine forTxs_ne_panic (fun _ => True) _ _ trivial fun tx ht m' _ => ⟨?_, fun _ => trivial⟩
    rw [createStep_map]
    by_cases hcr : creates tx = true
    · rw [if_pos hcr]
      have := contractOf_ne_panic (height := block.height) (bal := balance (m' tx.getRecipient.1)) hcr
      cases ho : contractOf tx block.height (balance (m' tx.getRecipient.1)) with
      | ok x => exact fun h => nomatch h
      | err e => exact fun h => nomatch h
      | panic => exact absurd ho this
    · rw [if_neg hcr]; exact fun h => nomatch h
  rw [M.bind_eq]
  rcases hs3 : createContracts E mapLedger block.height body m2 with ⟨o, m3⟩
  rw [hs3] at hc
  cases o with
  | err e => exact fun h => nomatch h
  | panic => exact absurd rfl hc
  | ok u =>
  simp only []
  rw [M.bind_eq]
  have hp := prune_ne_panic (E := E) (body := body) (m := m3)
  rcases hs4 : pruneAccounts E mapLedger body m3 with ⟨o, m4⟩
  rw [hs4] at hp
  cases o with
  | err e => exact fun h => nomatch h
  | panic => exact absurd rfl hp
  | ok u =>
  simp only []
  rw [inherents_map, if_neg h0]
  split <;> exact fun h => nomatch h

/-- A transaction that nobody can pay for, in a fresh node: Push does not panic. -/
example (E : Env) (a b c : Addr) (hash : Hash32) :
    (Push E ⟨1, hash, some ⟨c, [.extended ⟨[], a, 0, b, 0, 5, 1, 1, 1, 0, []⟩], []⟩⟩ newNode).1 ≠ .panic :=
  C64_no_panic_partial .new _ _ rfl (by show (1 : UInt32) ≠ 0; decide)
    (fun tx _ => .inl (by rw [accountOf_new]; rfl)) (fun t _ => .inl (by rw [accountOf_new]; rfl))

/-! ## Witnesses -/

/-- C64 is false: a block without a body panics, in every state. -/
theorem C64_nil_body_violated (n : Node) (height : UInt32) (hash : Hash32) :
    Push E ⟨height, hash, none⟩ n = (.panic, n) := rfl

/-- C64 is false: an otherwise acceptable block of height 0 panics, in every state. -/
theorem C64_height_violated (hn : Reach E n) (c : Addr) (hash : Hash32) :
    (Push E ⟨0, hash, some ⟨c, [], []⟩⟩ n).1 = .panic := by
  rw [(hn.push_eq _).1]
  rfl

/-- C64 is false: paying anything, even nothing, into a contract panics. -/
theorem C64_incoming_violated (hn : Reach E n) (a b c : Addr) (v : UInt64) (height : UInt32)
    (ha : accountOf n a = .basic ⟨v⟩) (hb : (accountOf n b).type ≠ 0) (hash : Hash32) (proof : Bytes) :
    (Push E ⟨height, hash, some ⟨c, [.extended ⟨[], a, 0, b, (accountOf n b).type, v, 0, 1, 1, 0, proof⟩], []⟩⟩ n).1 =
      .panic := by
  rw [(hn.push_eq _).1]
  generalize hm : accountOf n = m at *
  let t1 : Tx := .extended ⟨[], a, 0, b, (m b).type, v, 0, 1, 1, 0, proof⟩
  have hS : senderStep E height t1 m = (.ok (), AMap.set m a (.basic ⟨0⟩)) := by
    unfold senderStep
    refine pushTx_of_ok (.inr ?_) ?_
    · show (0 : UInt8) = (m a).type
      rw [ha]; rfl
    · show applyOutgoing E (m a) t1 height = _
      rw [ha, basic_out (d := v) (by show v + 0 = v; simp) (UInt64.le_refl v)]
      simp
  have hab : b ≠ a := by
    rintro rfl; rw [ha] at hb; exact hb rfl
  have hR : (recipientStep E height t1 (AMap.set m a (.basic ⟨0⟩))).1 = .panic := by
    have hrt : (t1.content E.H).recipient = b := rfl
    have hty : (if (t1.content E.H).flags &&& 0x01 = 0 then (t1.content E.H).recipientType else 0xFF) = (m b).type :=
      if_pos (show (0 : UInt8) &&& 0x01 = 0 by decide)
    unfold recipientStep
    rw [pushTx_map, hrt, hty, AMap.set_ne _ _ hab,
      if_neg (fun (h : (m b).type ≠ 0xFF ∧ (m b).type ≠ (m b).type) => h.2 rfl)]
    cases hmb : m b with
    | basic x => rw [hmb] at hb; exact absurd rfl hb
    | vesting x => rfl
    | htlc x => rfl
  unfold push
  show ((pushSenders E mapLedger height ⟨c, [t1], []⟩ >>= _) m).1 = _
  rw [M.bind_eq, pushSenders_eq, forTxs_cons, hS]
  simp only [forTxs_nil]
  rw [M.bind_eq, pushRecipients_eq, forTxs_cons]
  rcases hr : recipientStep E height t1 (AMap.set m a (.basic ⟨0⟩)) with ⟨o, m2⟩
  rw [hr] at hR
  cases hR
  rfl

/-- C64 is false: a proof with a Merkle path of 249 or more branches (8065 bytes are enough) for any vesting account panics;
it needs no key, no money and no unlocked funds. -/
theorem C64_long_path_violated (hn : Reach E n) (a b c : Addr) (va : VestingAccount) (height : UInt32)
    (ha : accountOf n a = .vesting va) (hash : Hash32) (s : SignatureProof) (hw : WfProof s)
    (hl : 249 ≤ s.merklePath.branches.len.toNat) :
    (Push E ⟨height, hash, some ⟨c, [.extended ⟨[], a, 1, b, 0, 0, 0, 1, 1, 0, proofBytes s⟩], []⟩⟩ n).1 = .panic := by
  rw [(hn.push_eq _).1]
  generalize hm : accountOf n = m at *
  let t1 : Tx := .extended ⟨[], a, 1, b, 0, 0, 0, 1, 1, 0, proofBytes s⟩
  have hsig : s.signerAddress E.H = .panic := by
    have := C52_decoded_violated E.H _ s.publicKey.val _ _ (MerklePath.dec_spec s.merklePath hw.1 hw.2 []) hl
    unfold SignatureProof.signerAddress
    rw [this]
  have hv : vestingOutgoing E va t1 height = .panic := by
    have hd := (sigProof_full SignatureProof.ty.zero s.toVal (proofBytes s)).mpr ⟨hw, rfl⟩
    unfold vestingOutgoing
    have ht : asExtendedPtr t1 = .ok ⟨[], a, 1, b, 0, 0, 0, 1, 1, 0, proofBytes s⟩ := rfl
    have hz : ¬ (0 : UInt64) > amountUnlocked E va height := UInt64.not_lt.mpr UInt64.zero_le
    have hb1 : ∀ {α β : Type} (x : α) (f : α → Out β), ((Out.ok x : Out α) >>= f) = f x := fun _ _ => rfl
    rw [ht, hb1]
    simp only []
    rw [if_neg hz, hd, hb1]
    show (s.signerAddress E.H >>= _) = Out.panic
    rw [hsig]
    rfl
  have hS : senderStep E height t1 m = (.panic, m) := by
    unfold senderStep
    rw [pushTx_map]
    show (if (1 : UInt8) ≠ 0xFF ∧ (1 : UInt8) ≠ (m a).type then _ else
      match applyOutgoing E (m a) t1 height with
      | .ok x => _ | .err e => _ | .panic => _) = _
    rw [ha, if_neg (by rintro ⟨_, h⟩; exact h rfl)]
    show (match vestingOutgoing E va t1 height with
      | .ok x => _ | .err e => _ | .panic => _) = _
    rw [hv]
  unfold push
  show ((pushSenders E mapLedger height ⟨c, [t1], []⟩ >>= _) m).1 = _
  rw [M.bind_eq, pushSenders_eq, forTxs_cons, hS]

/-- There is such a proof, and it is 8065 bytes long. -/
example (key : BArr 32) (sig : BArr 64) : ∃ s, WfProof s ∧ 249 ≤ s.merklePath.branches.len.toNat ∧
    (proofBytes s).length = 8065 := by
  have hw : WfProof ⟨key, ⟨⟨249, []⟩, List.replicate 249 (BArr.zero 32)⟩, sig⟩ :=
    ⟨by show 0 = BitSet.size 249; decide, List.length_replicate⟩
  exact ⟨_, hw, by show 249 ≤ (249 : UInt8).toNat; decide, by rw [proofBytes_length _ hw]; rfl⟩

end Nimiq.Accounts
