import Verif.Accounts.ContractSpec
import Verif.Accounts.Exact
import Verif.Wire.Sign
/-!
# What contracts accept, in terms of bytes
-/
namespace Nimiq.Accounts
open Beserial Beserial.Spec Wire Spec Float64

variable {E : Env}

/-! ## Decoding proofs -/

theorem sigProof_layout (v : SignatureProof.ty.Val) (b : Bytes) : enc SignatureProof.ty {} v = some b ↔
    WfProof (SignatureProof.ofVal v) ∧ b = proofBytes (SignatureProof.ofVal v) := by
  obtain ⟨pk, mp, sg, u⟩ := v
  simp only [SignatureProof.ty, enc, encFields, fieldTags_none, merklePath, Option.bind_eq_bind, Option.bind_some,
    Option.pure_def, WfProof, SignatureProof.ofVal, proofBytes]
  by_cases h : BitSet.size mp.branches.len = mp.branches.bits.length ∧ mp.hashes.length = mp.branches.len.toNat
  · rw [if_pos ⟨h.1.symm, h.2⟩]
    simp [h.1.symm, h.2, eq_comm, List.append_assoc]
  · rw [if_neg (fun hc => h ⟨hc.1.symm, hc.2⟩)]
    simp only [Option.bind_none, reduceCtorEq, false_iff]
    rintro ⟨h1, _⟩
    exact h ⟨h1.1.symm, h1.2⟩

theorem sigProof_full (prev : SignatureProof.ty.Val) (v : SignatureProof.ty.Val) (b : Bytes) :
    UnmarshalFull SignatureProof.ty prev b = .ok v ↔
      WfProof (SignatureProof.ofVal v) ∧ b = proofBytes (SignatureProof.ofVal v) := by
  rw [C37_full_canonical _ signatureProof_good, sigProof_layout]

theorem htlcRegular_good : Good htlcRegularTy := by
  simp only [htlcRegularTy, Good, GoodFields, and_true, true_and]
  exact signatureProof_good
theorem htlcEarly_good : Good htlcEarlyTy := by
  simp only [htlcEarlyTy, Good, GoodFields, and_true]
  exact ⟨signatureProof_good, signatureProof_good⟩
theorem htlcTimeout_good : Good htlcTimeoutTy := by
  simp only [htlcTimeoutTy, Good, GoodFields, and_true]
  exact signatureProof_good

theorem htlcRegular_full (v : htlcRegularTy.Val) (b : Bytes) :
    UnmarshalFull htlcRegularTy htlcRegularTy.zero b = .ok v ↔
      WfProof (SignatureProof.ofVal v.2.2.2.2.1) ∧
      b = v.1 :: v.2.1 :: (v.2.2.1.val ++ v.2.2.2.1.val ++ proofBytes (SignatureProof.ofVal v.2.2.2.2.1)) := by
  rw [C37_full_canonical _ htlcRegular_good]
  obtain ⟨alg, depth, root, pre, pf, u⟩ := v
  have hd : ∀ x : UInt8, digits 1 x.toNat = [x] := by intro x; simp [digits]
  have key := sigProof_layout pf
  simp only [htlcRegularTy, enc, encFields, fieldTags_none, Option.bind_eq_bind, Option.bind_some, Option.pure_def, num, hd]
  cases h : enc SignatureProof.ty {} pf with
  | none =>
    simp only [Option.bind_none, reduceCtorEq, false_iff]
    rintro ⟨h1, _⟩
    rw [(key _).mpr ⟨h1, rfl⟩] at h
    cases h
  | some bs =>
    obtain ⟨h1, rfl⟩ := (key bs).mp h
    simp [h1, eq_comm]

theorem htlcEarly_full (v : htlcEarlyTy.Val) (b : Bytes) :
    UnmarshalFull htlcEarlyTy htlcEarlyTy.zero b = .ok v ↔
      WfProof (SignatureProof.ofVal v.1) ∧ WfProof (SignatureProof.ofVal v.2.1) ∧
      b = proofBytes (SignatureProof.ofVal v.1) ++ proofBytes (SignatureProof.ofVal v.2.1) := by
  rw [C37_full_canonical _ htlcEarly_good]
  obtain ⟨p1, p2, u⟩ := v
  have k1 := sigProof_layout p1
  have k2 := sigProof_layout p2
  simp only [htlcEarlyTy, enc, encFields, fieldTags_none, Option.bind_eq_bind, Option.bind_some, Option.pure_def]
  cases h1 : enc SignatureProof.ty {} p1 with
  | none =>
    simp only [Option.bind_none, reduceCtorEq, false_iff]
    rintro ⟨h, _⟩
    rw [(k1 _).mpr ⟨h, rfl⟩] at h1
    cases h1
  | some b1 =>
    obtain ⟨w1, rfl⟩ := (k1 b1).mp h1
    cases h2 : enc SignatureProof.ty {} p2 with
    | none =>
      simp only [Option.bind_none, Option.bind_some, reduceCtorEq, false_iff]
      rintro ⟨_, h, _⟩
      rw [(k2 _).mpr ⟨h, rfl⟩] at h2
      cases h2
    | some b2 =>
      obtain ⟨w2, rfl⟩ := (k2 b2).mp h2
      simp [w1, w2, eq_comm]

theorem htlcTimeout_full (v : htlcTimeoutTy.Val) (b : Bytes) :
    UnmarshalFull htlcTimeoutTy htlcTimeoutTy.zero b = .ok v ↔
      WfProof (SignatureProof.ofVal v.1) ∧ b = proofBytes (SignatureProof.ofVal v.1) := by
  rw [C37_full_canonical _ htlcTimeout_good]
  obtain ⟨p1, u⟩ := v
  have k1 := sigProof_layout p1
  simp only [htlcTimeoutTy, enc, encFields, fieldTags_none, Option.bind_eq_bind, Option.bind_some, Option.pure_def]
  cases h1 : enc SignatureProof.ty {} p1 with
  | none =>
    simp only [Option.bind_none, reduceCtorEq, false_iff]
    rintro ⟨h, _⟩
    rw [(k1 _).mpr ⟨h, rfl⟩] at h1
    cases h1
  | some b1 =>
    obtain ⟨w1, rfl⟩ := (k1 b1).mp h1
    simp [w1, eq_comm]

/-! ## Debits -/

theorem vestingOutgoing_iff {c : VestingAccount} {tx : Tx} {height : UInt32} {x : Account} :
    vestingOutgoing E c tx height = .ok x ↔
      ∃ t, tx = .extended t ∧ t.value ≤ amountUnlocked E c height ∧ ProofOf E.H t.proof c.owner ∧
        x = .vesting { c with value := c.value - t.value } := by
  constructor
  · intro e
    simp only [vestingOutgoing, Out.bind_eq_ok] at e
    obtain ⟨t, ht, e⟩ := e
    refine ⟨t, asExtendedPtr_ok ht, ?_⟩
    split at e
    · cases e
    · rename_i hv
      simp only [Out.bind_eq_ok] at e
      obtain ⟨v, hd, sg, hs, e⟩ := e
      split at e
      · cases e
      · rename_i ho
        cases e
        obtain ⟨w, hb⟩ := (sigProof_full _ v _).mp hd
        exact ⟨UInt64.not_lt.mp hv, ⟨_, w, hb, by rw [hs, not_not.mp ho]⟩, rfl⟩
  · rintro ⟨t, rfl, hv, ⟨s, w, hb, hs⟩, rfl⟩
    simp only [vestingOutgoing, asExtendedPtr]
    have hd := (sigProof_full SignatureProof.ty.zero s.toVal t.proof).mpr ⟨w, hb⟩
    show (if t.value > amountUnlocked E c height then _ else _) = _
    rw [if_neg (UInt64.not_lt.mpr hv), hd]
    show (do let signer ← s.signerAddress E.H; _ : Out Account) = _
    rw [hs]
    show (if c.owner ≠ c.owner then _ else _) = _
    rw [if_neg (not_not.mpr rfl)]
    rfl

theorem htlcOutgoing_iff {c : HTLCAccount} {tx : Tx} {height : UInt32} {x : Account} :
    htlcOutgoing E c tx height = .ok x ↔
      ∃ t, tx = .extended t ∧ t.value ≤ c.value ∧ HTLCProof E.H c height t.proof ∧
        x = .htlc { c with value := c.value - t.value } := by
  constructor
  · intro e
    simp only [htlcOutgoing, Out.bind_eq_ok] at e
    obtain ⟨t, ht, e⟩ := e
    refine ⟨t, asExtendedPtr_ok ht, ?_⟩
    split at e
    · cases e
    · rename_i hv
      refine ⟨UInt64.not_lt.mp hv, ?_⟩
      split at e
      · cases e
      · rename_i ty proof hp
        split at e
        · rename_i h1
          split at e
          · cases e
          · rename_i hto
            simp only [Out.bind_eq_ok] at e
            obtain ⟨v, hd, e⟩ := e
            split at e
            · cases e
            · rename_i hm
              simp only [Out.bind_eq_ok] at e
              obtain ⟨s, hs, e⟩ := e
              split at e
              · cases e
              · rename_i ho
                cases e
                obtain ⟨w, hb⟩ := (htlcRegular_full v _).mp hd
                push Not at hm
                refine ⟨?_, rfl⟩
                rw [hp, h1, hb, hm.1, hm.2]
                exact .regular _ _ _ (UInt32.not_lt.mp hto) ⟨_, w, rfl, by rw [hs, not_not.mp ho]⟩
        · split at e
          · rename_i h1
            simp only [Out.bind_eq_ok] at e
            obtain ⟨v, hd, s, hs, e⟩ := e
            split at e
            · cases e
            · rename_i ho
              simp only [Out.bind_eq_ok] at e
              obtain ⟨s2, hs2, e⟩ := e
              split at e
              · cases e
              · rename_i ho2
                cases e
                obtain ⟨w1, w2, hb⟩ := (htlcEarly_full v _).mp hd
                refine ⟨?_, rfl⟩
                rw [hp, h1, hb]
                exact .early _ _ ⟨_, w1, rfl, by rw [hs, not_not.mp ho]⟩ ⟨_, w2, rfl, by rw [hs2, not_not.mp ho2]⟩
          · split at e
            · rename_i h1
              split at e
              · cases e
              · rename_i hto
                simp only [Out.bind_eq_ok] at e
                obtain ⟨v, hd, s, hs, e⟩ := e
                split at e
                · cases e
                · rename_i ho
                  cases e
                  obtain ⟨w, hb⟩ := (htlcTimeout_full v _).mp hd
                  refine ⟨?_, rfl⟩
                  rw [hp, h1, hb]
                  exact .timeout _ (UInt32.not_le.mp hto) ⟨_, w, rfl, by rw [hs, not_not.mp ho]⟩
            · cases e
  · rintro ⟨t, rfl, hv, hpf, rfl⟩
    have hv' := UInt64.not_lt.mpr hv
    generalize hpr : t.proof = proof at hpf
    cases hpf with
    | regular depth pre p hto hp =>
      obtain ⟨s, w, rfl, hs⟩ := hp
      have hd := (htlcRegular_full (c.hash.algorithm, depth, c.hash.bytes, pre, s.toVal, ()) _).mpr ⟨w, rfl⟩
      simp only [htlcOutgoing, Out.bind_eq_ok]
      refine ⟨t, rfl, ?_⟩
      rw [if_neg hv', hpr]
      simp only [if_true]
      rw [if_neg (UInt32.not_lt.mpr hto), Out.bind_eq_ok]
      refine ⟨_, hd, ?_⟩
      rw [if_neg (by simp), Out.bind_eq_ok]
      refine ⟨_, hs, ?_⟩
      rw [if_neg (by simp)]; rfl
    | early p1 p2 h1 h2 =>
      obtain ⟨s1, w1, rfl, hs1⟩ := h1
      obtain ⟨s2, w2, rfl, hs2⟩ := h2
      have hd := (htlcEarly_full (s1.toVal, s2.toVal, ()) _).mpr ⟨w1, w2, rfl⟩
      simp only [htlcOutgoing, Out.bind_eq_ok]
      refine ⟨t, rfl, ?_⟩
      rw [if_neg hv', hpr]
      simp only [if_true]
      rw [if_neg (by decide), Out.bind_eq_ok]
      refine ⟨_, hd, ?_⟩
      rw [Out.bind_eq_ok]
      refine ⟨_, hs1, ?_⟩
      rw [if_neg (by simp), Out.bind_eq_ok]
      refine ⟨_, hs2, ?_⟩
      rw [if_neg (by simp)]; rfl
    | timeout p hto hp =>
      obtain ⟨s, w, rfl, hs⟩ := hp
      have hd := (htlcTimeout_full (s.toVal, ()) _).mpr ⟨w, rfl⟩
      simp only [htlcOutgoing, Out.bind_eq_ok]
      refine ⟨t, rfl, ?_⟩
      rw [if_neg hv', hpr]
      simp only [if_true]
      rw [if_neg (by decide), if_neg (by decide), if_neg (UInt32.not_le.mpr hto), Out.bind_eq_ok]
      refine ⟨_, hd, ?_⟩
      rw [Out.bind_eq_ok]
      refine ⟨_, hs, ?_⟩
      rw [if_neg (by simp)]; rfl

/-! ## Creation -/

theorem vestingParams24_full (v : vestingParams24.Val) (b : Bytes) :
    UnmarshalFull vestingParams24 vestingParams24.zero b = .ok v ↔ b = v.1.val ++ digits 4 v.2.1.toNat := by
  rw [C37_full_canonical _ (by simp [vestingParams24, Good, GoodFields])]
  obtain ⟨o, st, u⟩ := v
  simp [vestingParams24, enc, encFields, fieldTags_none, num, eq_comm]

theorem vestingParams36_full (v : vestingParams36.Val) (b : Bytes) :
    UnmarshalFull vestingParams36 vestingParams36.zero b = .ok v ↔
      b = v.1.val ++ digits 4 v.2.1.toNat ++ digits 4 v.2.2.1.toNat ++ digits 8 v.2.2.2.1.toNat := by
  rw [C37_full_canonical _ (by simp [vestingParams36, Good, GoodFields])]
  obtain ⟨o, a, st, am, u⟩ := v
  simp [vestingParams36, enc, encFields, fieldTags_none, num, eq_comm]

theorem vestingParams44_full (v : vestingParams44.Val) (b : Bytes) :
    UnmarshalFull vestingParams44 vestingParams44.zero b = .ok v ↔
      b = v.1.val ++ digits 4 v.2.1.toNat ++ digits 4 v.2.2.1.toNat ++ digits 8 v.2.2.2.1.toNat ++
        digits 8 v.2.2.2.2.1.toNat := by
  rw [C37_full_canonical _ (by simp [vestingParams44, Good, GoodFields])]
  obtain ⟨o, a, st, am, tot, u⟩ := v
  simp [vestingParams44, enc, encFields, fieldTags_none, num, eq_comm]

theorem htlcParams_full (v : htlcParams.Val) (b : Bytes) :
    UnmarshalFull htlcParams htlcParams.zero b = .ok v ↔
      b = v.1.val ++ v.2.1.val ++ ((v.2.2.1 : Hash).algorithm :: (v.2.2.1 : Hash).bytes.val) ++ [(v.2.2.2.1 : UInt8)] ++
        digits 4 (v.2.2.2.2.1 : UInt32).toNat := by
  rw [C37_full_canonical _ (by simp [htlcParams, Good, GoodFields, hash_lawful])]
  obtain ⟨o, a, h, c, tot, u⟩ := v
  have hd : ∀ x : UInt8, digits 1 x.toNat = [x] := by intro x; simp [digits]
  simp [htlcParams, enc, encFields, fieldTags_none, num, eq_comm, Wire.hash, hd]

theorem initVesting_iff {t : ExtendedTx} {h : UInt32} {bal : UInt64} {x : Account} :
    initVesting (.extended t) h bal = .ok x ↔ ∃ c, x = .vesting c ∧ VestingData t.value bal t.data c := by
  have l20 : ∀ o : Addr, o.val.length = 20 := fun o => o.property
  constructor
  · intro e
    simp only [initVesting, Out.bind_eq_ok, asExtendedPtr] at e
    obtain ⟨t', ht, e⟩ := e
    cases ht
    split at e
    · simp only [Out.bind_eq_ok] at e
      obtain ⟨p, hp, e⟩ := e
      cases e
      refine ⟨_, rfl, ?_⟩
      rw [(vestingParams24_full p _).mp hp]
      exact .short ..
    · split at e
      · simp only [Out.bind_eq_ok] at e
        obtain ⟨p, hp, e⟩ := e
        cases e
        refine ⟨_, rfl, ?_⟩
        rw [(vestingParams36_full p _).mp hp]
        exact .medium ..
      · split at e
        · simp only [Out.bind_eq_ok] at e
          obtain ⟨p, hp, e⟩ := e
          cases e
          refine ⟨_, rfl, ?_⟩
          rw [(vestingParams44_full p _).mp hp]
          exact .long ..
        · cases e
  · rintro ⟨c, rfl, hc⟩
    simp only [initVesting, Out.bind_eq_ok, asExtendedPtr]
    refine ⟨t, rfl, ?_⟩
    generalize hd : t.data = d at hc
    cases hc with
    | short o st =>
      rw [if_pos (by simp [digits_length, l20]), Out.bind_eq_ok]
      exact ⟨(o, st, ()), (vestingParams24_full (o, st, ()) _).mpr rfl, rfl⟩
    | medium o a st am =>
      rw [if_neg (by simp [digits_length, l20]), if_pos (by simp [digits_length, l20]), Out.bind_eq_ok]
      exact ⟨(o, a, st, am, ()), (vestingParams36_full (o, a, st, am, ()) _).mpr rfl, rfl⟩
    | long o a st am tot =>
      rw [if_neg (by simp [digits_length, l20]), if_neg (by simp [digits_length, l20]),
        if_pos (by simp [digits_length, l20]), Out.bind_eq_ok]
      exact ⟨(o, a, st, am, tot, ()), (vestingParams44_full (o, a, st, am, tot, ()) _).mpr rfl, rfl⟩

theorem initHTLC_iff {t : ExtendedTx} {h : UInt32} {bal : UInt64} {x : Account} :
    initHTLC (.extended t) h bal = .ok x ↔ ∃ c, x = .htlc c ∧ HTLCData t.value bal t.data c := by
  constructor
  · intro e
    simp only [initHTLC, Out.bind_eq_ok, asExtendedPtr] at e
    obtain ⟨t', ht, p, hp, e⟩ := e
    cases ht
    split at e
    · cases e
    · rename_i h0
      cases e
      refine ⟨_, rfl, ?_⟩
      rw [(htlcParams_full p _).mp hp]
      exact .mk _ _ _ _ _ h0
  · rintro ⟨c, rfl, hc⟩
    simp only [initHTLC, Out.bind_eq_ok, asExtendedPtr]
    refine ⟨t, rfl, ?_⟩
    generalize hd : t.data = d at hc
    cases hc with
    | mk s r hs ct tot h0 =>
      refine ⟨(s, r, hs, ct, tot, ()), (htlcParams_full (s, r, hs, ct, tot, ()) _).mpr rfl, ?_⟩
      exact if_neg h0

theorem contractOf_iff {tx : Tx} {h : UInt32} {bal : UInt64} {x : Account} (hc : creates tx = true) :
    contractOf tx h bal = .ok x ↔ ∃ t, tx = .extended t ∧ NewContract t bal x := by
  cases tx with
  | basic t => cases hc
  | extended t =>
    have hr : (Tx.extended t).getRecipient.2 = t.recipientType := rfl
    have hex : ∀ P : ExtendedTx → Prop, (∃ t', Tx.extended t = .extended t' ∧ P t') ↔ P t := by
      intro P
      constructor
      · rintro ⟨t', he, h⟩; cases he; exact h
      · intro h; exact ⟨t, rfl, h⟩
    rw [hex]
    unfold contractOf
    rw [hr]
    by_cases h1 : t.recipientType = 1
    · rw [if_pos h1, initVesting_iff]
      cases x with
      | basic a => simp [NewContract]
      | vesting a => simp [NewContract, h1]
      | htlc a => simp [NewContract, h1]
    · rw [if_neg h1]
      by_cases h2 : t.recipientType = 2
      · rw [if_pos h2, initHTLC_iff]
        cases x with
        | basic a => simp [NewContract]
        | vesting a => simp [NewContract, h1]
        | htlc a => simp [NewContract, h2]
      · rw [if_neg h2]
        cases x with
        | basic a => simp [NewContract]
        | vesting a => simp [NewContract, h1]
        | htlc a => simp [NewContract, h2]

end Nimiq.Accounts
