import Verif.Accounts.Unsigned
/-!
# C59: the prune list

A concrete block that meets the hypotheses of these theorems, and the theorems applied to it: Accounts/Witness.lean.
-/
namespace Nimiq.Accounts.Spec
open Wire

/-- What the prune list says about an address: the last entry for it counts. -/
def listed (pruned : List (Addr × Option Account)) (a : Addr) : Option (Option Account) :=
  ((pruned.filter fun e => e.1 = a).getLast?).map (·.2)

end Nimiq.Accounts.Spec

namespace Nimiq.Accounts
open Beserial Beserial.Spec Wire Spec

variable {E : Env} {n n' : Node}

theorem listed_eq (l : List (Addr × Option Account)) (a : Addr) : listed l a = quoted l a := rfl

/-- C59. In a successful push, every address on the prune list sent a transaction, the list quotes for it a contract without
funds, and afterwards the contract is gone: the address is a basic account, empty unless it is the miner's. -/
theorem C59_listed (hn : Reach E n) (block : Block) (body : Body) (hb : block.body = some body)
    (h : Push E block n = (.ok (), n')) (a : Addr) (hl : listed body.pruned a ≠ none) :
    (∃ tx ∈ body.txs, (tx.getSender E.H).1 = a) ∧
    (∃ x, listed body.pruned a = some (some x) ∧ x.type ≠ 0 ∧ funds x = 0) ∧
    (accountOf n' a).type = 0 ∧ (a ≠ body.minerAddr → accountOf n' a = .basic ⟨0⟩) := by
  obtain ⟨body', hb', h0, s1, s2, s3, s4, s5, s6⟩ := push_iff.mp (push_map hn h)
  rw [hb] at hb'; cases hb'
  obtain ⟨k1, k2⟩ := s4.2 a hl
  have hq := s4.1 a k1 k2
  have hpr : afterPrune E.H body.txs (afterTransfers E block body (accountOf n)) a = initialAccount := by
    unfold afterPrune; rw [if_pos ⟨k1, k2⟩]
  refine ⟨k1, ⟨_, hq, k2.2, by rw [funds_eq, k2.1]; rfl⟩, ?_, ?_⟩
  · rw [s6]; unfold afterInherents
    by_cases ha : a = body.minerAddr
    · subst ha; rw [AMap.set_same, type_withBalance]; exact s5
    · rw [AMap.set_ne _ _ ha, hpr]; rfl
  · intro ha
    rw [s6]; unfold afterInherents
    rw [AMap.set_ne _ _ ha, hpr]; rfl

/-- C59. In a successful push, an address that had a contract before the block: if it sent something and nothing is left of
its balance, the prune list quotes the contract with a balance of 0 and the contract is gone; otherwise it is not on the
list and stays, with its balance reduced by what it sent (modulo `2^64`, see C57). -/
theorem C59_contract (hn : Reach E n) (block : Block) (body : Body) (hb : block.body = some body)
    (h : Push E block n = (.ok (), n')) (a : Addr) (ha : (accountOf n a).type ≠ 0) :
    ∃ left : UInt64, (left.toNat + sentValue E.H body.txs a) % 2 ^ 64 = funds (accountOf n a) ∧
      if left = 0 ∧ ∃ tx ∈ body.txs, (tx.getSender E.H).1 = a then
        listed body.pruned a = some (some (withBalance (accountOf n a) 0)) ∧ (accountOf n' a).type = 0
      else listed body.pruned a = none ∧ accountOf n' a = withBalance (accountOf n a) left := by
  obtain ⟨body', hb', h0, s1, s2, s3, s4, s5, s6⟩ := push_iff.mp (push_map hn h)
  rw [hb] at hb'; cases hb'
  generalize hm : accountOf n = m at *
  have hrecv : ∀ tx ∈ body.txs, tx.getRecipient.1 ≠ a := by
    intro tx ht he
    have := (s2 tx ht).1
    rw [he] at this
    exact ha this
  have hT : afterTransfers E block body m a = withBalance (m a) (balance (m a) - ((sentBy E.H a body.txs).map (debit (m a))).sum) := by
    have e1 : lastCreate a body.txs = none := by
      unfold lastCreate
      rw [List.filter_eq_nil_iff.mpr]
      · rfl
      · intro tx ht hc
        rw [decide_eq_true_eq] at hc
        exact hrecv tx ht hc.2
    have e2 : receivedBy a body.txs = [] := by
      unfold receivedBy
      rw [List.filter_eq_nil_iff]
      intro tx ht hc
      exact hrecv tx ht (by simpa using hc)
    unfold afterTransfers afterCreate
    rw [e1]
    simp only []
    unfold afterRecipients
    rw [e2]
    simp [afterSenders]
  have hsum : ((sentBy E.H a body.txs).map (debit (m a))).sum.toNat = sentValue E.H body.txs a % 2 ^ 64 := by
    have hd : debit (m a) = fun tx : Tx => tx.amount.1 := by
      funext tx
      cases hma : m a with
      | basic x => rw [hma] at ha; exact absurd rfl ha
      | vesting x => rfl
      | htlc x => rfl
    rw [hd]
    have key : ∀ l : List Tx, (l.map fun tx : Tx => tx.amount.1).sum.toNat = (l.map value).sum % 2 ^ 64 := by
      intro l
      induction l with
      | nil => rfl
      | cons tx l ih =>
        rw [List.map_cons, List.sum_cons, List.map_cons, List.sum_cons, UInt64.toNat_add, ih]
        have : value tx = tx.amount.1.toNat := rfl
        rw [this]; omega
    rw [key]; rfl
  refine ⟨balance (m a) - ((sentBy E.H a body.txs).map (debit (m a))).sum, ?_, ?_⟩
  · rw [UInt64.toNat_sub, hsum, funds_eq]
    have := (balance (m a)).toNat_lt
    omega
  · generalize balance (m a) - ((sentBy E.H a body.txs).map (debit (m a))).sum = left at *
    have hdead : Dead (afterTransfers E block body m a) ↔ left = 0 := by
      rw [hT]; unfold Dead; rw [balance_withBalance, type_withBalance]
      exact ⟨fun h => h.1, fun h => ⟨h, ha⟩⟩
    split
    · rename_i hc
      have hd := hdead.mpr hc.1
      have hq := s4.1 a hc.2 hd
      refine ⟨by rw [hT, hc.1] at hq; exact hq, ?_⟩
      exact (C59_listed hn block body hb h a (by rw [listed_eq, hq]; simp)).2.2.1
    · rename_i hc
      have hnot : ¬ (Sends E.H body.txs a ∧ Dead (afterTransfers E block body m a)) := by
        rintro ⟨h1, h2⟩; exact hc ⟨hdead.mp h2, h1⟩
      constructor
      · by_contra hcon
        exact hnot (s4.2 a hcon)
      · have hap : afterPrune E.H body.txs (afterTransfers E block body m) a = afterTransfers E block body m a := by
          unfold afterPrune; rw [if_neg hnot]
        have hmin : a ≠ body.minerAddr := by
          rintro rfl
          rw [hap, hT, type_withBalance] at s5
          exact ha s5
        rw [s6]; unfold afterInherents
        rw [AMap.set_ne _ _ hmin, hap, hT]

/-- C59. For given transactions there is only one prune list that can be accepted, up to order and entries superseded by
later ones for the same address: if a block is accepted, the same block with another list is accepted iff both lists say
the same about every address. The resulting accounts are the same. -/
theorem C59_list_unique (hn : Reach E n) (height : UInt32) (hash : Hash32) (miner : Addr) (txs : List Tx)
    (p1 p2 : List (Addr × Option Account)) (h : Push E ⟨height, hash, some ⟨miner, txs, p1⟩⟩ n = (.ok (), n')) :
    ((Push E ⟨height, hash, some ⟨miner, txs, p2⟩⟩ n).1 = .ok () ↔ ∀ a, listed p2 a = listed p1 a) ∧
    ((Push E ⟨height, hash, some ⟨miner, txs, p2⟩⟩ n).1 = .ok () →
      accountOf (Push E ⟨height, hash, some ⟨miner, txs, p2⟩⟩ n).2 = accountOf n') := by
  have q2 := hn.push_eq ⟨height, hash, some ⟨miner, txs, p2⟩⟩
  have hm := push_map hn h
  obtain ⟨_, hb', h0, s1, s2, s3, s4, s5, s6⟩ := push_iff.mp hm
  cases hb'
  have hT : ∀ p, afterTransfers E ⟨height, hash, some ⟨miner, txs, p⟩⟩ ⟨miner, txs, p⟩ (accountOf n) =
    afterTransfers E ⟨height, hash, some ⟨miner, txs, p1⟩⟩ ⟨miner, txs, p1⟩ (accountOf n) := fun _ => rfl
  rw [q2.1, q2.2]
  constructor
  · constructor
    · intro hok
      obtain ⟨_, hb', _, _, _, _, r4, _⟩ := push_iff.mp (Prod.ext hok rfl :
        push E mapLedger ⟨height, hash, some ⟨miner, txs, p2⟩⟩ (accountOf n) = (.ok (), _))
      cases hb'
      rw [hT] at r4
      intro a
      rw [listed_eq, listed_eq]
      by_cases hc : Sends E.H txs a ∧ Dead (afterTransfers E ⟨height, hash, some ⟨miner, txs, p1⟩⟩ ⟨miner, txs, p1⟩ (accountOf n) a)
      · exact (r4.1 a hc.1 hc.2).trans (s4.1 a hc.1 hc.2).symm
      · have e1 : quoted p1 a = none := by by_contra hcon; exact hc (s4.2 a hcon)
        have e2 : quoted p2 a = none := by by_contra hcon; exact hc (r4.2 a hcon)
        rw [e1, e2]
    · intro he
      have he' : ∀ a, quoted p2 a = quoted p1 a := he
      have : push E mapLedger ⟨height, hash, some ⟨miner, txs, p2⟩⟩ (accountOf n) = (.ok (), accountOf n') :=
        push_iff.mpr ⟨_, rfl, h0, s1, s2, s3, ⟨fun a h1 h2 => (he' a).trans (s4.1 a h1 h2), fun a h1 => s4.2 a (by
          show quoted p1 a ≠ none
          rw [← he']; exact h1)⟩, s5, s6⟩
      rw [this]
  · intro hok
    obtain ⟨_, hb', _, _, _, _, _, _, r6⟩ := push_iff.mp (Prod.ext hok rfl :
      push E mapLedger ⟨height, hash, some ⟨miner, txs, p2⟩⟩ (accountOf n) = (.ok (), _))
    cases hb'
    exact r6.trans s6.symm

/-- C59. The outcome, even the error, does not depend on the order in which Go iterates over maps - except which of the
superfluous addresses an error names. -/
theorem C59_map_order (E : Env) (pick' : (l : List Addr) → l ≠ [] → { a : Addr // a ∈ l }) (n : Node) (block : Block) :
    (Push E block n).2 = (Push { E with pick := pick' } block n).2 ∧
    ((Push E block n).1 = (Push { E with pick := pick' } block n).1 ∨
      ∃ a b, (Push E block n).1 = .err (.pruneEarly a) ∧ (Push { E with pick := pick' } block n).1 = .err (.pruneEarly b)) := by
  have loop : ∀ (txs : List Tx) (pm : PruneMap), pruneLoop { E with pick := pick' } (nodeLedger E.H) txs pm =
      pruneLoop E (nodeLedger E.H) txs pm := by
    intro txs
    induction txs with
    | nil => intro pm; rfl
    | cons tx txs ih => intro pm; simp only [pruneLoop, ih]
  unfold Push push
  cases block.body with
  | none => exact ⟨rfl, .inl rfl⟩
  | some body =>
    simp only []
    have e1 : pushSenders { E with pick := pick' } (nodeLedger E.H) block.height body =
      pushSenders E (nodeLedger E.H) block.height body := rfl
    have e2 : pushRecipients { E with pick := pick' } (nodeLedger E.H) block.height body =
      pushRecipients E (nodeLedger E.H) block.height body := rfl
    have e3 : createContracts { E with pick := pick' } (nodeLedger E.H) block.height body =
      createContracts E (nodeLedger E.H) block.height body := rfl
    rw [e1, e2, e3]
    have bind_case : ∀ (x : M Node Unit) (f g : Unit → M Node Unit),
        (∀ s, (f () s).2 = (g () s).2 ∧ ((f () s).1 = (g () s).1 ∨ ∃ a b, (f () s).1 = .err (.pruneEarly a) ∧
          (g () s).1 = .err (.pruneEarly b))) →
        ∀ s, ((x >>= f) s).2 = ((x >>= g) s).2 ∧ (((x >>= f) s).1 = ((x >>= g) s).1 ∨
          ∃ a b, ((x >>= f) s).1 = .err (.pruneEarly a) ∧ ((x >>= g) s).1 = .err (.pruneEarly b)) := by
      intro x f g hfg s
      rw [M.bind_eq, M.bind_eq]
      rcases x s with ⟨o, s1⟩
      cases o with
      | ok u => exact hfg s1
      | err e => exact ⟨rfl, .inl rfl⟩
      | panic => exact ⟨rfl, .inl rfl⟩
    refine bind_case _ _ _ (bind_case _ _ _ (bind_case _ _ _ ?_)) n
    intro s
    rw [M.bind_eq, M.bind_eq]
    unfold pruneAccounts
    rw [M.bind_eq, M.bind_eq, loop]
    rcases pruneLoop E (nodeLedger E.H) body.txs (pruneMap body.pruned) s with ⟨o, s1⟩
    cases o with
    | err e => exact ⟨rfl, .inl rfl⟩
    | panic => exact ⟨rfl, .inl rfl⟩
    | ok pm =>
      simp only []
      by_cases hpm : pm.map (·.1) ≠ []
      · rw [dif_pos hpm, dif_pos hpm]
        exact ⟨rfl, .inr ⟨_, _, rfl, rfl⟩⟩
      · rw [dif_neg hpm, dif_neg hpm]
        exact ⟨rfl, .inl rfl⟩

/-! ## An example -/

/-- A contract that is emptied and pruned: an expired HTLC of 5, reclaimed by its sender. -/
theorem prune_witness (E : Env) (key : BArr 32) (sig : BArr 64) (a b c : Addr) (hab : a ≠ b) (hac : a ≠ c) (hbc : b ≠ c)
    (hash : Hash32) :
    let acc : HTLCAccount := ⟨5, publicKeyToAddress E.H key, b, ⟨3, BArr.zero 32⟩, 1, 10, 5⟩
    let n := (Node.putAccount E.H a (some (.htlc acc)) newNode).2
    let tx : Tx := .extended ⟨[], a, 2, b, 0, 5, 0, 1, 1, 0, 3 :: (key.val ++ 0 :: sig.val)⟩
    (Push E ⟨11, hash, some ⟨c, [tx], [(a, some (.htlc { acc with value := 0 }))]⟩⟩ n).1 = .ok () ∧
    (Push E ⟨11, hash, some ⟨c, [tx], []⟩⟩ n).1 ≠ .ok () := by
  intro acc n tx
  have hn : Reach E n := .put _ _ .new
  have hm : accountOf n = AMap.set (fun _ => .basic ⟨0⟩) a (.htlc acc) := by rw [accountOf_put .new, accountOf_new]
  have hs : (tx.getSender E.H).1 = a := rfl
  have hr : tx.getRecipient = (b, 0) := rfl
  have hmem : ∀ {t : Tx}, t ∈ [tx] → t = tx := fun h => List.mem_singleton.mp h
  have hcr : creates tx = false := creates_flags0 rfl
  have hout : applyOutgoing E (.htlc acc) tx 11 = .ok (.htlc { acc with value := 0 }) := by
    refine (C61_debit_iff ..).mpr ⟨_, rfl, UInt64.le_refl _, ?_, by
      have : (0 : UInt64) = 5 - 5 := by decide
      exact congrArg (fun v => Account.htlc { acc with value := v }) this⟩
    refine .timeout _ (by show (10 : UInt32) < 11; decide) ⟨⟨key, ⟨⟨0, []⟩, []⟩, sig⟩, ⟨by show 0 = BitSet.size 0; decide, rfl⟩,
      by simp [proofBytes], C52_empty E.H _ rfl⟩
  have hS : afterSenders E.H [tx] (accountOf n) = AMap.set (accountOf n) a (.htlc { acc with value := 0 }) := by
    funext d
    unfold afterSenders
    by_cases h : a = d
    · subst h
      have : sentBy E.H a [tx] = [tx] := by simp [sentBy, hs]
      have hma : accountOf n a = .htlc acc := by rw [hm, AMap.set_same]
      rw [this, AMap.set_same, hma]
      show withBalance (.htlc acc) ((5 : UInt64) - (5 + 0)) = _
      rfl
    · have : sentBy E.H d [tx] = [] := by simp [sentBy, hs, h]
      rw [this, AMap.set_ne _ _ (Ne.symm h)]; simp
  have hRne : ∀ m d, d ≠ b → afterRecipients [tx] m d = m d := by
    intro m d h
    have : receivedBy d [tx] = [] := by simp [receivedBy, hr, Ne.symm h]
    simp [afterRecipients, this]
  have hT : ∀ p d, d ≠ b → afterTransfers E ⟨11, hash, some ⟨c, [tx], p⟩⟩ ⟨c, [tx], p⟩ (accountOf n) d =
      AMap.set (accountOf n) a (.htlc { acc with value := 0 }) d := by
    intro p d hd
    unfold afterTransfers
    rw [afterCreate_none (fun t ht => by rw [hmem ht]; exact hcr)]
    show afterRecipients [tx] (afterSenders E.H [tx] (accountOf n)) d = _
    rw [hRne _ _ hd, hS]
  have hsends : ∀ d, Sends E.H [tx] d ↔ d = a := by
    intro d; simp [Sends, hs, eq_comm]
  have hdead : Dead (.htlc { acc with value := 0 }) := ⟨rfl, by show (2 : UInt8) ≠ 0; decide⟩
  constructor
  · rw [(hn.push_eq _).1, push_iff.mpr ⟨_, rfl, by show (11 : UInt32) ≠ 0; decide, ?_, ?_, ?_, ?_, ?_, rfl⟩]
    · intro pre t post he
      rcases List.append_eq_singleton_iff.mp he.symm with ⟨rfl, h2⟩ | ⟨_, h2⟩
      · cases h2
        have e0 : afterSenders E.H [] (accountOf n) = accountOf n := by funext a; simp [afterSenders, sentBy]
        have hma : accountOf n a = .htlc acc := by rw [hm, AMap.set_same]
        rw [e0]
        exact ⟨.inr (by rw [hs, hma]; rfl), _, by rw [hs, hma]; exact hout⟩
      · cases h2
    · intro t ht; rw [hmem ht]
      exact ⟨by rw [hr, hm, AMap.set_ne _ _ (Ne.symm hab)]; rfl, .inr (.inl (by rw [hr]))⟩
    · intro t ht h; rw [hmem ht, hcr] at h; cases h
    · refine ⟨fun d h1 _ => ?_, fun d h => ?_⟩
      · rw [(hsends d).mp h1, hT _ _ hab, AMap.set_same]
        simp [quoted]
      · have : d = a := by
          by_contra hcon
          exact h (by simp [quoted, Ne.symm hcon])
        subst this
        exact ⟨(hsends d).mpr rfl, by rw [hT _ _ hab, AMap.set_same]; exact hdead⟩
    · unfold afterPrune
      rw [if_neg (by rintro ⟨h, _⟩; exact hac ((hsends c).mp h).symm)]
      show (afterTransfers _ _ _ _ c).type = 0
      rw [hT _ _ (Ne.symm hbc), AMap.set_ne _ _ (Ne.symm hac), hm, AMap.set_ne _ _ (Ne.symm hac)]
      rfl
  · intro hok
    rw [(hn.push_eq _).1] at hok
    obtain ⟨_, hb', _, _, _, _, r4, _⟩ := push_iff.mp (Prod.ext hok rfl :
      push E mapLedger ⟨11, hash, some ⟨c, [tx], []⟩⟩ (accountOf n) = (.ok (), _))
    cases hb'
    have := r4.1 a ((hsends a).mpr rfl) (by rw [hT _ _ hab, AMap.set_same]; exact hdead)
    cases this

end Nimiq.Accounts
