import Verif.Accounts.Order
import Verif.Accounts.Recover
/-!
# C132: empty contracts in the state; C133: whose money a contract is created from

Specification: `EmptyContract` and the English statements; the transactions of the two violations are spelled out.
-/
namespace Nimiq.Accounts.Spec
open Wire

/-- A vesting contract or HTLC without money. -/
def EmptyContract (x : Account) : Prop := x.type ≠ 0 ∧ funds x = 0

/-- The transaction asks for a contract at `a`: it is sent to `a` with the contract creation flag. -/
def CreatesAt (H : Nimiq.Bytes → Hash32) (tx : Tx) (a : Addr) : Prop :=
  tx.getRecipient.1 = a ∧ (tx.content H).flags &&& 0x01 ≠ 0

end Nimiq.Accounts.Spec

namespace Nimiq.Accounts
open Beserial Beserial.Spec Wire Spec

variable {E : Env} {n n' : Node}

theorem emptyContract_iff (x : Account) : EmptyContract x ↔ Dead x := by
  unfold EmptyContract Dead
  rw [funds_eq]
  constructor
  · rintro ⟨h1, h2⟩; exact ⟨UInt64.toNat_inj.mp h2, h1⟩
  · rintro ⟨h1, h2⟩; exact ⟨h2, by rw [h1]; rfl⟩

theorem dead_withBalance_ne {x : Account} (h : x.type = 0) (v : UInt64) : ¬ Dead (withBalance x v) := by
  rintro ⟨_, h2⟩
  rw [type_withBalance] at h2
  exact h2 h

/-- In terms of the state between the transfers and the pruning. -/
theorem empty_after {block : Block} {body : Body} (hb : block.body = some body) {m m' : AMap}
    (h : push E mapLedger block m = (.ok (), m')) (a : Addr) :
    Dead (m' a) ↔ ¬ Sends E.H body.txs a ∧ Dead (afterTransfers E block body m a) := by
  obtain ⟨body', hb', h0, s1, s2, s3, s4, s5, s6⟩ := push_iff.mp h
  rw [hb] at hb'; cases hb'
  rw [s6]; unfold afterInherents
  by_cases ha : a = body.minerAddr
  · subst ha
    rw [AMap.set_same]
    constructor
    · intro hd; exact absurd hd (dead_withBalance_ne s5 _)
    · rintro ⟨h1, h2⟩
      have hap : afterPrune E.H body.txs (afterTransfers E block body m) body.minerAddr =
          afterTransfers E block body m body.minerAddr := by
        unfold afterPrune; rw [if_neg fun h => h1 h.1]
      rw [hap] at s5
      exact absurd s5 h2.2
  · rw [AMap.set_ne _ _ ha]
    unfold afterPrune
    by_cases hc : Sends E.H body.txs a ∧ Dead (afterTransfers E block body m a)
    · rw [if_pos hc]
      exact ⟨fun hd => absurd hd dead_initial, fun hd => absurd hc.1 hd.1⟩
    · rw [if_neg hc]
      exact ⟨fun hd => ⟨fun hs => hc ⟨hs, hd⟩, hd⟩, fun hd => hd.2⟩

/-- C132. Exactly when there is a contract without money at an address after a successful push: nothing was sent from there,
and it was there before, or the block created it at an address without money and sent nothing there (modulo `2^64`). -/
theorem C132_exact (hn : Reach E n) (block : Block) (body : Body) (hb : block.body = some body)
    (h : Push E block n = (.ok (), n')) (a : Addr) :
    EmptyContract (accountOf n' a) ↔
      (∀ tx ∈ body.txs, (tx.getSender E.H).1 ≠ a) ∧
      (EmptyContract (accountOf n a) ∨
        (accountOf n a).type = 0 ∧ (∃ tx ∈ body.txs, CreatesAt E.H tx a) ∧
          (funds (accountOf n a) + receivedValue body.txs a) % 2 ^ 64 = 0) := by
  have hm := push_map hn h
  have key := empty_after hb hm a
  rw [← emptyContract_iff] at key
  have hsend : ¬ Sends E.H body.txs a ↔ ∀ tx ∈ body.txs, (tx.getSender E.H).1 ≠ a :=
    ⟨fun h tx ht he => h ⟨tx, ht, he⟩, fun h ⟨tx, ht, he⟩ => h tx ht he⟩
  by_cases hs : ∀ tx ∈ body.txs, (tx.getSender E.H).1 ≠ a
  swap
  · rw [key, hsend]
    exact ⟨fun h => absurd h.1 hs, fun h => absurd h.1 hs⟩
  have hno : ¬ ∃ tx ∈ body.txs, (tx.getSender E.H).1 = a := fun ⟨tx, ht, he⟩ => hs tx ht he
  by_cases hty : (accountOf n a).type = 0
  · by_cases hcr : ∃ tx ∈ body.txs, CreatesAt E.H tx a
    · obtain ⟨pre, t, post, _, _, _, _, bal, hbal, hnc⟩ := C63_created hn block body hb h a
        (by obtain ⟨tx, ht, h1, h2⟩ := hcr; exact ⟨tx, ht, h1, h2⟩) hs
      have hf := (C63_lengths t bal _ hnc).2
      have htype : (accountOf n' a).type ≠ 0 := by
        cases hx : accountOf n' a with
        | basic x => rw [hx] at hnc; exact hnc.elim
        | vesting x => show (1 : UInt8) ≠ 0; decide
        | htlc x => show (2 : UInt8) ≠ 0; decide
      unfold EmptyContract
      rw [hf, hbal]
      exact ⟨fun h => ⟨hs, .inr ⟨hty, hcr, h.2⟩⟩, fun h => ⟨htype, h.2.elim (fun h' => absurd hty h'.1) fun h' => h'.2.2⟩⟩
    · have hT : ¬ Dead (afterTransfers E block body (accountOf n) a) := by
        rintro ⟨_, h2⟩
        apply h2
        have e1 : lastCreate a body.txs = none := by
          unfold lastCreate
          rw [List.filter_eq_nil_iff.mpr]
          · rfl
          · intro tx ht hc
            rw [decide_eq_true_eq] at hc
            exact hcr ⟨tx, ht, hc.2, (creates_iff E.H tx).mp hc.1⟩
        unfold afterTransfers afterCreate
        rw [e1]
        simp only []
        rw [type_afterRecipients, type_afterSenders]
        exact hty
      constructor
      · intro h; exact absurd (key.mp h).2 hT
      · rintro ⟨_, h | h⟩
        · exact absurd hty h.1
        · exact absurd h.2.1 hcr
  · obtain ⟨left, h1, h2⟩ := C59_contract hn block body hb h a hty
    rw [if_neg fun h => hno h.2] at h2
    have hsv : sentValue E.H body.txs a = 0 := by
      unfold sentValue
      rw [List.filter_eq_nil_iff.mpr]
      · rfl
      · intro tx ht hc
        exact hs tx ht (by simpa using hc)
    rw [hsv, Nat.add_zero, Nat.mod_eq_of_lt left.toNat_lt] at h1
    unfold EmptyContract
    rw [h2.2, type_withBalance, funds_eq (withBalance _ _), balance_withBalance, h1]
    exact ⟨fun h => ⟨hs, .inl h⟩, fun h => h.2.elim id fun h' => absurd h'.1 hty⟩

/-- C132 (partial: only if every contract that is created gets money). Blocks that put money into every contract they create,
pushed on a state without empty contracts, leave none. -/
theorem C132_none_partial (hn : Reach E n) {blocks : List Block} (hc : Chain E n blocks n')
    (h0 : ∀ a, ¬ EmptyContract (accountOf n a))
    (hb : ∀ pre block post body n1, blocks = pre ++ block :: post → block.body = some body → Chain E n pre n1 →
      ∀ tx ∈ body.txs, ∀ a, CreatesAt E.H tx a →
        0 < value tx ∧ funds (accountOf n1 a) + receivedValue body.txs a < 2 ^ 64) (a : Addr) :
    ¬ EmptyContract (accountOf n' a) := by
  induction hc with
  | nil => exact h0 a
  | cons hp hrest ih =>
    rename_i n n1 n2 block blocks
    have hn1 : Reach E n1 := by
      have := Reach.push block hn
      rw [hp] at this; exact this
    apply ih hn1
    · intro a he
      obtain ⟨body, hbody, _⟩ := push_iff.mp (push_map hn hp)
      obtain ⟨_, h | ⟨_, ⟨tx, ht, hcr⟩, hz⟩⟩ := (C132_exact hn block body hbody hp a).mp he
      · exact h0 a h
      · obtain ⟨hv, hlt⟩ := hb [] block blocks body n rfl hbody .nil tx ht a hcr
        rw [Nat.mod_eq_of_lt hlt] at hz
        have : value tx ≤ receivedValue body.txs a := by
          unfold receivedValue
          apply List.single_le_sum (by simp)
          exact List.mem_map_of_mem (List.mem_filter.mpr ⟨ht, by simpa using hcr.1⟩)
        omega
    · intro pre b post body m he hbody hch tx ht a hcr
      exact hb (block :: pre) b post body m (by rw [he]; rfl) hbody (.cons hp hch) tx ht a hcr

/-- C132. An empty contract stays as it is, through any number of blocks, as long as nothing is sent from it. -/
theorem C132_stays (hn : Reach E n) {blocks : List Block} (hc : Chain E n blocks n') (a : Addr)
    (h0 : EmptyContract (accountOf n a))
    (hs : ∀ block ∈ blocks, ∀ body, block.body = some body → ∀ tx ∈ body.txs, (tx.getSender E.H).1 ≠ a) :
    accountOf n' a = accountOf n a := by
  induction hc with
  | nil => rfl
  | cons hp hrest ih =>
    rename_i n n1 n2 block blocks
    have hn1 : Reach E n1 := by
      have := Reach.push block hn
      rw [hp] at this; exact this
    obtain ⟨body, hbody, _⟩ := push_iff.mp (push_map hn hp)
    have hs1 := hs block (List.mem_cons_self ..) body hbody
    obtain ⟨left, h1, h2⟩ := C59_contract hn block body hbody hp a h0.1
    rw [if_neg fun ⟨_, tx, ht, he⟩ => hs1 tx ht he] at h2
    have hsv : sentValue E.H body.txs a = 0 := by
      unfold sentValue
      rw [List.filter_eq_nil_iff.mpr]
      · rfl
      · intro tx ht hc
        exact hs1 tx ht (by simpa using hc)
    rw [hsv, Nat.add_zero, Nat.mod_eq_of_lt left.toNat_lt, funds_eq] at h1
    have e : accountOf n1 a = accountOf n a := by
      rw [h2.2, UInt64.toNat_inj.mp h1]; cases accountOf n a <;> rfl
    rw [ih hn1 (by rw [e]; exact h0) (fun b hb => hs b (List.mem_cons_of_mem _ hb)), e]

/-! ## One creation -/

/-- A block with one transaction, by which a basic account creates a contract at another address. -/
theorem create_push (hn : Reach E n) (s a c : Addr) (t : ExtendedTx) (b w : UInt64) (x : Account) (height : UInt32)
    (h0 : height ≠ 0) (hs : accountOf n s = .basic ⟨b⟩) (ha : accountOf n a = .basic ⟨w⟩) (hc : (accountOf n c).type = 0)
    (hsa : s ≠ a) (hca : c ≠ a) (ht : t.sender = s ∧ t.senderType = 0 ∧ t.recipient = a ∧ t.flags &&& 0x01 ≠ 0)
    (hv : t.value.toNat + t.fee.toNat ≤ b.toNat) (hx : NewContract t (w + t.value) x) (hash : Hash32) :
    let block : Block := ⟨height, hash, some ⟨c, [.extended t], []⟩⟩
    (Push E block n).1 = .ok () ∧ accountOf (Push E block n).2 a = x := by
  intro block
  obtain ⟨t1, t2, t3, t4⟩ := ht
  have q := hn.push_eq block
  generalize hm : accountOf n = m at *
  have hcr : creates (.extended t) = true := by
    show (t.flags &&& 0x01 != 0) = true
    simpa using t4
  have hco : contractOf (.extended t) height (w + t.value) = .ok x := (contractOf_iff hcr).mpr ⟨_, rfl, hx⟩
  have hsender : ((Tx.extended t).getSender E.H) = (s, 0) := by
    show (t.sender, t.senderType) = _
    rw [t1, t2]
  have hrec : (Tx.extended t).getRecipient.1 = a := t3
  have hle : t.value + t.fee ≤ b := by
    rw [UInt64.le_iff_toNat_le, UInt64.toNat_add]
    exact Nat.le_trans (Nat.mod_le _ _) hv
  have hS : SenderOk E height m (.extended t) := by
    refine ⟨.inr ?_, .basic ⟨b - (t.value + t.fee)⟩, ?_⟩
    · rw [hsender, hs]; rfl
    · rw [hsender, hs]; exact basic_out rfl hle
  have hlast : ∀ d, lastCreate d [.extended t] = if a = d then some (.extended t) else none := by
    intro d
    by_cases h : a = d
    · rw [lastCreate_cons_pos ⟨hcr, hrec.trans h⟩, if_pos h]; rfl
    · rw [lastCreate_cons_neg fun hd => h (hrec.symm.trans hd.2), if_neg h]; rfl
  have hTa : afterTransfers E block ⟨c, [.extended t], []⟩ m a = x := by
    show afterCreate height _ _ a = _
    unfold afterCreate
    rw [hlast, if_pos rfl]
    have hbal : balance (afterRecipients [.extended t] (afterSenders E.H [.extended t] m) a) = w + t.value := by
      have hr : receivedBy a [.extended t] = [.extended t] := by simp [receivedBy, hrec]
      have hno : sentBy E.H a [.extended t] = [] := by simp [sentBy, hsender, hsa]
      unfold afterRecipients
      rw [hr, balance_withBalance]
      unfold afterSenders
      rw [hno, balance_withBalance, ha]
      show (w - 0) + (t.value + 0) = w + t.value
      simp
    simp only [hbal, hco]
  have hTo : ∀ d, d ≠ a → (afterTransfers E block ⟨c, [.extended t], []⟩ m d).type = (m d).type := by
    intro d hd
    show (afterCreate height _ _ d).type = _
    unfold afterCreate
    rw [hlast, if_neg (Ne.symm hd)]
    show (afterRecipients _ (afterSenders E.H _ m) d).type = _
    rw [type_afterRecipients, type_afterSenders]
  have hnd : ∀ d, ¬ (Sends E.H [.extended t] d ∧ Dead (afterTransfers E block ⟨c, [.extended t], []⟩ m d)) := by
    rintro d ⟨⟨u, hu, hud⟩, hdd⟩
    rw [List.mem_singleton.mp hu, hsender] at hud
    have : s = d := hud
    subst this
    exact hdd.2 (by rw [hTo _ hsa, hs]; rfl)
  have hP : afterPrune E.H [.extended t] (afterTransfers E block ⟨c, [.extended t], []⟩ m) =
      afterTransfers E block ⟨c, [.extended t], []⟩ m := by
    funext d; unfold afterPrune; rw [if_neg (hnd d)]
  have hp : push E mapLedger block m = (.ok (), afterInherents height ⟨c, [.extended t], []⟩
      (afterTransfers E block ⟨c, [.extended t], []⟩ m)) := by
    refine push_iff.mpr ⟨_, rfl, h0, fun pre u post he => ?_, fun u hu => ?_, fun u hu _ => ?_, ?_, ?_, ?_⟩
    · cases pre with
      | nil => cases he; rw [afterSenders_nil]; exact hS
      | cons p l => cases l <;> cases he
    · rw [List.mem_singleton.mp hu]
      exact ⟨by rw [hrec, ha]; rfl, .inl hcr⟩
    · rw [List.mem_singleton.mp hu]
      exact ⟨_, contractOf_total hco⟩
    · exact ⟨fun d h1 h2 => absurd ⟨h1, h2⟩ (hnd d), fun d h => absurd rfl h⟩
    · simp only [hP]
      rw [hTo _ hca]; exact hc
    · simp only [hP]; rfl
  rw [hp] at q
  refine ⟨q.1, ?_⟩
  rw [q.2]
  show afterInherents _ _ _ a = _
  unfold afterInherents
  rw [AMap.set_ne (a := c) _ _ (Ne.symm hca)]
  exact hTa

/-- C132 is false: in every reachable state, any basic account, even one without money, can put an empty contract at any
unused address, by a transaction without value and fee. No
block pushed next can pay to the address. -/
theorem C132_violated (hn : Reach E n) (s a c o : Addr) (b : UInt64) (step height : UInt32) (h0 : height ≠ 0)
    (hs : accountOf n s = .basic ⟨b⟩) (ha : accountOf n a = .basic ⟨0⟩) (hc : (accountOf n c).type = 0)
    (hsa : s ≠ a) (hca : c ≠ a) (hash : Hash32) :
    let block : Block := ⟨height, hash, some ⟨c, [vestTx s a o 0 step], []⟩⟩
    (Push E block n).1 = .ok () ∧
    EmptyContract (accountOf (Push E block n).2 a) ∧
    ∀ (block' : Block) (body' : Body), block'.body = some body' → (∃ tx ∈ body'.txs, tx.getRecipient.1 = a) →
      (Push E block' (Push E block n).2).1 ≠ .ok () := by
  intro block
  obtain ⟨p1, p2⟩ := create_push hn s a c ⟨o.val ++ digits 4 step.toNat, s, 0, a, 1, 0, 0, 1, 1, 1, []⟩ b 0
    (.vesting ⟨0 + 0, o, 0, step, 0, 0⟩) height h0 hs ha hc hsa hca ⟨rfl, rfl, rfl, by show (1 : UInt8) &&& 1 ≠ 0; decide⟩
    (Nat.zero_le _) ⟨rfl, .short o step⟩ hash
  refine ⟨p1, ?_, ?_⟩
  · show EmptyContract (accountOf (Push E ⟨height, hash, some ⟨c, [.extended _], []⟩⟩ n).2 a)
    rw [p2]
    exact ⟨by show (1 : UInt8) ≠ 0; decide, rfl⟩
  · rintro block' body' hb' ⟨tx, ht, hr⟩ hok
    obtain ⟨body'', hb'', _, _, s2, _⟩ := push_iff.mp (push_map (hn.push block) (Prod.ext hok rfl :
      Push E block' (Push E block n).2 = (.ok (), _)))
    rw [hb'] at hb''; cases hb''
    have := (s2 tx ht).1
    rw [hr, show accountOf (Push E block n).2 a = _ from p2] at this
    exact absurd this (by show ¬ (1 : UInt8) = 0; decide)

/-! ## C133 -/

/-- C133. Money stays where it is: in a successful push, at an address from which nothing is sent and at which no contract
is created, the account keeps its type and all its fields but the balance, which grows by what is sent there and, for the
miner, by the reward and the fees (modulo `2^64`). -/
theorem C133_kept_partial (hn : Reach E n) (block : Block) (body : Body) (hb : block.body = some body)
    (h : Push E block n = (.ok (), n')) (r : UInt64) (k : List UInt64)
    (hr : Policy.blockReward n.cache block.height = .ok (r, k)) (a : Addr)
    (hs : ∀ tx ∈ body.txs, (tx.getSender E.H).1 ≠ a) (hcr : ∀ tx ∈ body.txs, ¬ CreatesAt E.H tx a) :
    ∃ bal : UInt64, accountOf n' a = withBalance (accountOf n a) bal ∧
      bal.toNat = (funds (accountOf n a) + receivedValue body.txs a +
        if a = body.minerAddr then r.toNat + fees body.txs else 0) % 2 ^ 64 := by
  have hm := push_map hn h
  obtain ⟨c', hr'⟩ := rewardAt_node hn (height_pos hm)
  rw [hr] at hr'; cases hr'
  obtain ⟨body', hb', h0, s1, s2, s3, s4, s5, s6⟩ := push_iff.mp hm
  rw [hb] at hb'; cases hb'
  generalize accountOf n = m at *
  have e1 : lastCreate a body.txs = none := by
    unfold lastCreate
    rw [List.filter_eq_nil_iff.mpr]
    · rfl
    · intro tx ht hc
      rw [decide_eq_true_eq] at hc
      exact hcr tx ht ⟨hc.2, (creates_iff E.H tx).mp hc.1⟩
  have e2 : sentBy E.H a body.txs = [] := by
    unfold sentBy
    rw [List.filter_eq_nil_iff]
    intro tx ht hc
    exact hs tx ht (by simpa using hc)
  have hT : afterTransfers E block body m a =
      withBalance (m a) (balance (m a) + ((receivedBy a body.txs).map fun tx : Tx => tx.amount.1).sum) := by
    unfold afterTransfers afterCreate
    rw [e1]
    simp only []
    unfold afterRecipients afterSenders
    rw [e2]
    simp
  have hP : afterPrune E.H body.txs (afterTransfers E block body m) a = afterTransfers E block body m a := by
    unfold afterPrune; rw [if_neg fun h => hs _ h.1.choose_spec.1 h.1.choose_spec.2]
  have key : ∀ l : List Tx, (l.map fun tx : Tx => tx.amount.1).sum.toNat = (l.map value).sum % 2 ^ 64 := by
    intro l
    induction l with
    | nil => rfl
    | cons tx l ih =>
      rw [List.map_cons, List.sum_cons, List.map_cons, List.sum_cons, UInt64.toNat_add, ih]
      have : value tx = tx.amount.1.toNat := rfl
      rw [this]; omega
  have hrv : receivedValue body.txs a = ((receivedBy a body.txs).map value).sum := rfl
  have hfe : fees body.txs = (body.txs.map fee).sum := rfl
  rw [s6]; unfold afterInherents
  by_cases ha : a = body.minerAddr
  · subst ha
    rw [AMap.set_same, hP, hT, if_pos rfl]
    refine ⟨_, by rw [withBalance_withBalance, balance_withBalance], ?_⟩
    rw [UInt64.toNat_add, UInt64.toNat_add, UInt64.toNat_add, key, fees_mod, funds_eq, hrv, hfe]
    omega
  · rw [AMap.set_ne _ _ ha, hP, hT, if_neg ha]
    refine ⟨_, rfl, ?_⟩
    rw [UInt64.toNat_add, key, funds_eq, hrv]
    omega

/-- Creation data of an HTLC at `a` that can be cashed by `o` at every height but 0. -/
def seizeTx (s a o : Addr) (hash : Hash) (proof : Bytes) : ExtendedTx :=
  ⟨o.val ++ o.val ++ (hash.algorithm :: hash.bytes.val) ++ [1] ++ digits 4 (0 : UInt32).toNat, s, 0, a, 2, 0, 0, 1, 1, 1, proof⟩

/-- C133 is false: nothing ties the address of a created contract to the transaction that creates it. In every reachable state,
whoever has a basic account `s` (it may be empty) and a key can turn anybody else's basic account, with all its money, into a
contract of his own, by a transaction of his own without value and fee; and then, signing with his own key, can move any part
of that money, up to all of it, to any third basic account. The victim signs nothing. -/
theorem C133_seize_violated (hn : Reach E n) (s victim c b : Addr) (own w : UInt64) (height : UInt32) (h0 : height ≠ 0)
    (hs : accountOf n s = .basic ⟨own⟩) (hv : accountOf n victim = .basic ⟨w⟩) (hc : (accountOf n c).type = 0)
    (hb : accountOf n b = .basic ⟨0⟩) (hsv : s ≠ victim) (hcv : c ≠ victim) (hbv : b ≠ victim) (hbs : b ≠ s) (hbc : b ≠ c)
    (key : BArr 32) (sig : BArr 64) (hash : Hash) (bhash : Hash32) (proof : Bytes) (height' : UInt32) (h0' : height' ≠ 0)
    (v : UInt64) (hvw : v ≤ w) :
    let o := publicKeyToAddress E.H key
    let block : Block := ⟨height, bhash, some ⟨c, [.extended (seizeTx s victim o hash proof)], []⟩⟩
    (Push E block n).1 = .ok () ∧
    accountOf (Push E block n).2 victim = .htlc ⟨w, o, o, hash, 1, 0, 0⟩ ∧
    accountOf (Push E block n).2 b = .basic ⟨0⟩ ∧
    CanPay E (Push E block n).2 victim b v height' (3 :: (key.val ++ 0 :: sig.val)) := by
  intro o block
  obtain ⟨p1, p2⟩ := create_push hn s victim c (seizeTx s victim o hash proof) own w
    (.htlc ⟨w + 0, o, o, hash, 1, 0, 0⟩) height h0 hs hv hc hsv hcv ⟨rfl, rfl, rfl, by show (1 : UInt8) &&& 1 ≠ 0; decide⟩
    (Nat.zero_le _) ⟨rfl, .mk o o hash 1 0 (by decide)⟩ bhash
  rw [show w + 0 = w by simp] at p2
  have p3 : accountOf (Push E block n).2 b = .basic ⟨0⟩ := by
    rw [← hb, (hn.push_eq block).2]
    refine push_frame (E := E) block b (fun body hbody => ?_) _
    cases hbody
    refine ⟨hbc, fun tx ht => ?_⟩
    rw [List.mem_singleton.mp ht]
    exact ⟨Ne.symm hbs, Ne.symm hbv⟩
  refine ⟨p1, p2, p3, ?_⟩
  exact C87_htlc_refund (hn.push block) victim b _ p2 (Ne.symm hbv) (by rw [p3]; rfl) v hvw height' (by
    show (0 : UInt32) < height'
    rw [UInt32.lt_iff_toNat_lt]
    have : height'.toNat ≠ 0 := fun h => h0' (UInt32.toNat_inj.mp h)
    show 0 < height'.toNat
    omega) key sig rfl

/-! ## The hypotheses are met -/

/-- A state with a basic account that holds 7, and otherwise empty. -/
theorem seven (E : Env) (s : Addr) : ∃ n, Reach E n ∧ accountOf n s = .basic ⟨7⟩ ∧ ∀ a, a ≠ s → accountOf n a = .basic ⟨0⟩ :=
  ⟨(Node.putAccount E.H s (some (.basic ⟨7⟩)) newNode).2, .put _ _ .new, by rw [accountOf_put .new, AMap.set_same],
    fun a ha => by rw [accountOf_put .new, AMap.set_ne _ _ ha, accountOf_new]⟩

/-- The hypotheses of `C133_seize_violated` (victim `v` with 7, penniless attacker `s`) and `C132_violated`: all of the 7 ends
up with `b`. -/
example (E : Env) (s v c b : Addr) (hsv : s ≠ v) (hcv : c ≠ v) (hbv : b ≠ v) (hbs : b ≠ s) (hbc : b ≠ c) (key : BArr 32) :
    ∃ n, Reach E n ∧ accountOf n v = .basic ⟨7⟩ ∧ ∃ block n1, Push E block n = (.ok (), n1) ∧
      CanPay E n1 v b 7 2 (3 :: (key.val ++ 0 :: (BArr.zero 64).val)) := by
  obtain ⟨n, hn, h7, h0⟩ := seven E v
  obtain ⟨p1, _, _, p4⟩ := C133_seize_violated hn s v c b 0 7 1 (by decide) (h0 s hsv) h7 (by rw [h0 c hcv]; rfl) (h0 b hbv)
    hsv hcv hbv hbs hbc key (BArr.zero 64) ⟨3, BArr.zero 32⟩ (BArr.zero 32) [] 2 (by decide) 7 (by decide)
  exact ⟨n, hn, h7, _, _, Prod.ext p1 rfl, p4⟩

example (E : Env) (s a c o : Addr) (hsa : s ≠ a) (hca : c ≠ a) (hcs : c ≠ s) : ∃ n block n1, Reach E n ∧
    (∀ b, ¬ EmptyContract (accountOf n b)) ∧ Push E block n = (.ok (), n1) ∧ EmptyContract (accountOf n1 a) := by
  obtain ⟨n, hn, h7, h0⟩ := seven E s
  obtain ⟨p1, p2, _⟩ := C132_violated hn s a c o 7 1 1 (by decide) h7 (h0 a (Ne.symm hsa)) (by rw [h0 c hcs]; rfl) hsa hca
    (BArr.zero 32)
  refine ⟨n, _, _, hn, fun b hb => ?_, Prod.ext p1 rfl, p2⟩
  by_cases h : b = s
  · rw [h, h7] at hb; exact hb.1 rfl
  · rw [h0 b h] at hb; exact hb.1 rfl

/-- The hypotheses of `C132_none_partial`: a block that creates a contract with 3. -/
example (E : Env) (s a c o : Addr) (hsa : s ≠ a) (hca : c ≠ a) (hcs : c ≠ s) : ∃ n block n1, Reach E n ∧
    Chain E n [block] n1 ∧ accountOf n1 a = .vesting ⟨3, o, 0, 1, 3, 3⟩ ∧ ∀ b, ¬ EmptyContract (accountOf n1 b) := by
  obtain ⟨n, hn, h7, h0⟩ := seven E s
  obtain ⟨p1, p2⟩ := create_push hn s a c ⟨o.val ++ digits 4 (1 : UInt32).toNat, s, 0, a, 1, 3, 0, 1, 1, 1, []⟩ 7 0
    (.vesting ⟨0 + 3, o, 0, 1, 3, 3⟩) 1 (by decide) h7 (h0 a (Ne.symm hsa)) (by rw [h0 c hcs]; rfl) hsa hca
    ⟨rfl, rfl, rfl, by show (1 : UInt8) &&& 1 ≠ 0; decide⟩ (by show 3 + 0 ≤ 7; decide) ⟨rfl, .short o 1⟩ (BArr.zero 32)
  have hch : Chain E n [_] _ := .cons (Prod.ext p1 rfl) .nil
  refine ⟨n, _, _, hn, hch, p2, C132_none_partial hn hch (fun b hb => ?_) ?_⟩
  · by_cases h : b = s
    · rw [h, h7] at hb; exact hb.1 rfl
    · rw [h0 b h] at hb; exact hb.1 rfl
  · intro pre block post body n1 he hb hc tx ht d hd
    cases pre with
    | cons p l => cases l <;> cases he
    | nil =>
      cases he; cases hb; cases hc
      rw [List.mem_singleton.mp ht] at hd ⊢
      have hda : a = d := hd.1
      subst hda
      rw [h0 a (Ne.symm hsa)]
      refine ⟨by show 0 < 3; decide, ?_⟩
      have : receivedValue [.extended ⟨o.val ++ digits 4 (1 : UInt32).toNat, s, 0, a, 1, 3, 0, 1, 1, 1, []⟩] a = 3 := by
        simp [receivedValue, Tx.getRecipient, value, Tx.amount]
      show 0 + receivedValue _ a < 2 ^ 64
      rw [this]; decide

end Nimiq.Accounts
