import Verif.Accounts.Plain
/-!
# C76, C77: exact results of plain blocks and of chains

A concrete block that meets the hypotheses of these theorems, and the theorems applied to it: Accounts/Witness.lean.
-/
namespace Nimiq.Accounts
open Beserial Wire Spec

variable {E : Env} {n n' : Node}

/-! ## The reward -/

theorem rewardAt_supply {h : UInt32} (h0 : h ≠ 0) :
    Policy.Spec.supply (h - 1).toNat + (rewardAt h).toNat = Policy.Spec.supply h.toNat := by
  obtain ⟨r, s, s', c1, c2, c3, e1, e2, e3, e4, _⟩ := (Policy.C26_reward_is_increment Policy.Reachable.init
    Policy.Reachable.init Policy.Reachable.init h).2 h0
  have hr : rewardAt h = r := by unfold rewardAt; rw [e1]
  obtain ⟨s2, c, f1, f2⟩ := Policy.C24_cache_invisible Policy.Reachable.init h
  obtain ⟨s3, c', g1, g2⟩ := Policy.C24_cache_invisible Policy.Reachable.init (h - 1)
  rw [e2] at f1; rw [e3] at g1
  cases f1; cases g1
  rw [hr, ← f2, ← g2]; exact e4

theorem rewardAt_le {h : UInt32} (h0 : h ≠ 0) : (rewardAt h).toNat ≤ Policy.Spec.cap := by
  have h1 := rewardAt_supply h0
  have h2 := Policy.spec_supply_le_cap h.toNat
  omega

/-! ## C76 -/

theorem sentMod_eq {H : Bytes → Hash32} {txs : List Tx} (hwrap : ∀ tx ∈ txs, value tx + fee tx < 2 ^ 64) (a : Addr) :
    ((sentBy H a txs).map fun tx => (value tx + fee tx) % 2 ^ 64).sum = sentWithFees H txs a := by
  unfold sentWithFees sentBy
  rw [List.map_congr_left]
  intro tx ht
  exact Nat.mod_eq_of_lt (hwrap tx (List.mem_filter.mp ht).1)

/-- C76. A block of plain transfers between basic accounts, with an empty prune list and a basic account as miner, is
accepted iff every account covers what it sends in the block, with fees, by what it had before the block. -/
theorem C76_accepted_iff (hn : Reach E n) (block : Block) (body : Body) (hb : block.body = some body)
    (h0 : block.height ≠ 0) (hprune : body.pruned = []) (hminer : (accountOf n body.minerAddr).type = 0)
    (hsend : ∀ tx ∈ body.txs, (accountOf n (tx.getSender E.H).1).type = 0 ∧ (tx.getSender E.H).2 = 0)
    (hrecv : ∀ tx ∈ body.txs, (accountOf n tx.getRecipient.1).type = 0 ∧ tx.getRecipient.2 = 0 ∧
      (tx.content E.H).flags &&& 0x01 = 0)
    (hwrap : ∀ tx ∈ body.txs, value tx + fee tx < 2 ^ 64) :
    (Push E block n).1 = .ok () ↔ ∀ a, sentWithFees E.H body.txs a ≤ funds (accountOf n a) := by
  have hc : ∀ tx ∈ body.txs, creates tx = false := by
    intro tx ht
    by_contra hc
    exact (creates_iff E.H tx).mp (by simpa using hc) (hrecv tx ht).2.2
  have p := fun m' => plain_push_iff (E := E) (m := accountOf n) (m' := m') hb (fun tx ht => (hsend tx ht).1) hc
  rw [(hn.acc.push block).1]
  constructor
  · intro h a
    have := ((p _).mp (Prod.ext h rfl)).2.2.1 a
    rwa [sentMod_eq hwrap] at this
  · intro h
    rw [(p _).mpr ⟨h0, fun tx ht => .inr (hsend tx ht).2, fun a => by rw [sentMod_eq hwrap]; exact h a,
      fun tx ht => ⟨(hrecv tx ht).1, .inl (hrecv tx ht).2.1⟩, hprune, hminer, rfl⟩]

theorem sum_toNat : ∀ (l : List UInt64), (l.map (·.toNat)).sum < 2 ^ 64 → l.sum.toNat = (l.map (·.toNat)).sum := by
  intro l
  induction l with
  | nil => intro _; rfl
  | cons x l ih =>
    intro h
    rw [List.map_cons, List.sum_cons] at h ⊢
    rw [List.sum_cons, UInt64.toNat_add, ih (by omega)]
    exact Nat.mod_eq_of_lt h

/-- C76. After a block of plain transfers has been pushed, every account has what it had, minus what it sent with fees,
plus what it received, plus, for the miner, the block reward and the fees. -/
theorem C76_balances (hn : Reach E n) (block : Block) (body : Body) (hb : block.body = some body)
    (h : Push E block n = (.ok (), n'))
    (hsend : ∀ tx ∈ body.txs, (accountOf n (tx.getSender E.H).1).type = 0)
    (hplain : ∀ tx ∈ body.txs, (tx.content E.H).flags &&& 0x01 = 0)
    (hwrap : ∀ tx ∈ body.txs, value tx + fee tx < 2 ^ 64)
    (r : UInt64) (c : List UInt64) (hr : Policy.blockReward n.cache block.height = .ok (r, c))
    (hlt : total (accountOf n) + r.toNat < 2 ^ 64) (a : Addr) :
    (accountOf n' a).type = (accountOf n a).type ∧
    ((accountOf n a).type ≠ 0 → accountOf n' a = accountOf n a) ∧
    funds (accountOf n' a) + sentWithFees E.H body.txs a =
      funds (accountOf n a) + receivedValue body.txs a +
        if a = body.minerAddr then r.toNat + fees body.txs else 0 := by
  have hm := push_map hn h
  obtain ⟨c', hr'⟩ := rewardAt_node hn (height_pos hm)
  rw [hr] at hr'; cases hr'
  have hc : ∀ tx ∈ body.txs, creates tx = false := by
    intro tx ht
    by_contra hc
    exact (creates_iff E.H tx).mp (by simpa using hc) (hplain tx ht)
  obtain ⟨q0, q1, q2, q3, q4, q5, q6⟩ := (plain_push_iff (E := E) hb hsend hc).mp hm
  simp only [sentMod_eq hwrap] at q2
  rw [q6]
  generalize accountOf n = m at *
  have hty : ∀ a, (afterRecipients body.txs (afterSenders E.H body.txs m) a).type = (m a).type := by
    intro a; rw [type_afterRecipients, type_afterSenders]
  -- what is left after the senders paid
  have hsd : ∀ a, ((sentBy E.H a body.txs).map (debit (m a))).sum.toNat = sentWithFees E.H body.txs a := by
    intro a
    have e : ((sentBy E.H a body.txs).map (debit (m a))).map (·.toNat) =
        (sentBy E.H a body.txs).map fun tx => value tx + fee tx := by
      rw [List.map_map]
      apply List.map_congr_left
      intro tx ht
      have hf := List.mem_filter.mp ht
      have hs : (tx.getSender E.H).1 = a := by simpa using hf.2
      have h0 := hsend tx hf.1
      rw [hs] at h0
      show (debit (m a) tx).toNat = _
      rw [debit_exact (fun _ => hwrap tx hf.1)]
      simp [debitN, h0]
    have hb := q2 a
    have hf : funds (m a) < 2 ^ 64 := by rw [funds_eq]; exact UInt64.toNat_lt _
    have hs : sentWithFees E.H body.txs a = ((sentBy E.H a body.txs).map fun tx => value tx + fee tx).sum := rfl
    rw [sum_toNat _ (by rw [e, ← hs]; omega), e]; rfl
  have hleft : ∀ a, (balance (afterSenders E.H body.txs m a)).toNat + sentWithFees E.H body.txs a = funds (m a) := by
    intro a
    have hb := q2 a
    unfold afterSenders
    rw [balance_withBalance, UInt64.toNat_sub_of_le _ _ (by
      rw [UInt64.le_iff_toNat_le, hsd, ← funds_eq]; exact hb), hsd, ← funds_eq]
    omega
  -- the total after the senders paid
  have hm' := hm
  obtain ⟨body', m1, m2, m3, m4, hb', h1, _⟩ := push_ok hm
  rw [hb] at hb'; cases hb'
  rw [pushSenders_eq] at h1
  have htot := senders_total (fun tx ht _ => hwrap tx ht) (by
    intro b hb1
    have : sentValue E.H body.txs b = 0 := by
      unfold sentValue
      rw [List.filter_eq_nil_iff.mpr]
      · rfl
      · intro tx ht hs
        have h0 := hsend tx ht
        rw [decide_eq_true_eq] at hs
        rw [hs, hb1] at h0
        cases h0
    omega) h1
  rw [senders_ok h1] at htot
  have hall : debitsN E.H m body.txs = (body.txs.map value).sum + (body.txs.map fee).sum := by
    have := debitsN_split E.H m body.txs
    have hz : contractFees E.H m body.txs = 0 := by
      unfold contractFees
      rw [List.map_congr_left (g := fun _ => 0) (fun tx ht => by rw [if_pos (hsend tx ht)])]
      simp
    omega
  have hbt := balance_le_total (afterSenders E.H body.txs m) a
  have hrv : receivedValue body.txs a ≤ (body.txs.map value).sum := by
    unfold receivedValue
    exact List.Sublist.sum_le_sum (List.filter_sublist.map _) (by simp)
  have hrs : ((receivedBy a body.txs).map fun tx : Tx => tx.amount.1).sum.toNat = receivedValue body.txs a := by
    have e : ((receivedBy a body.txs).map fun tx : Tx => tx.amount.1).map (·.toNat) =
        (body.txs.filter fun tx => tx.getRecipient.1 = a).map value := by rw [List.map_map]; rfl
    have hs : receivedValue body.txs a = ((body.txs.filter fun tx => tx.getRecipient.1 = a).map value).sum := rfl
    rw [sum_toNat _ (by rw [e, ← hs]; omega), e]; rfl
  have hafter : (balance (afterRecipients body.txs (afterSenders E.H body.txs m) a)).toNat =
      (balance (afterSenders E.H body.txs m a)).toNat + receivedValue body.txs a := by
    unfold afterRecipients
    rw [balance_withBalance, UInt64.toNat_add, hrs]
    exact Nat.mod_eq_of_lt (by omega)
  have hfee : ((body.txs.map fun tx : Tx => tx.amount.2).sum).toNat = fees body.txs := by
    rw [fees_mod]; exact Nat.mod_eq_of_lt (by omega)
  have hl := hleft a
  have hfe : fees body.txs = (body.txs.map fee).sum := rfl
  unfold afterInherents
  by_cases ha : a = body.minerAddr
  · subst ha
    rw [AMap.set_same, if_pos rfl]
    refine ⟨by rw [type_withBalance, hty], fun hne => absurd q5 hne, ?_⟩
    rw [funds_eq, balance_withBalance, UInt64.toNat_add, UInt64.toNat_add, hfee, hafter]
    rw [Nat.mod_eq_of_lt (a := (rewardAt block.height).toNat + fees body.txs) (by omega), Nat.mod_eq_of_lt (by omega)]
    omega
  · rw [AMap.set_ne _ _ ha, if_neg ha]
    refine ⟨hty a, fun hne => ?_, ?_⟩
    · have hz1 : sentBy E.H a body.txs = [] := by
        unfold sentBy
        rw [List.filter_eq_nil_iff]
        intro tx ht hs
        exact hne (by have := hsend tx ht; rwa [show (tx.getSender E.H).1 = a by simpa using hs] at this)
      have hz2 : receivedBy a body.txs = [] := by
        unfold receivedBy
        rw [List.filter_eq_nil_iff]
        intro tx ht hs
        exact hne (by have := (q3 tx ht).1; rwa [show tx.getRecipient.1 = a by simpa using hs] at this)
      unfold afterRecipients afterSenders
      rw [hz1, hz2]
      simp
    · rw [funds_eq, hafter]
      omega

/-! ## C77 -/

/-- Blocks pushed one after the other, all successfully. -/
inductive Chain (E : Env) : Node → List Block → Node → Prop
  | nil {n : Node} : Chain E n [] n
  | cons {n n1 n2 : Node} {block : Block} {blocks : List Block} :
      Push E block n = (.ok (), n1) → Chain E n1 blocks n2 → Chain E n (block :: blocks) n2

/-- The heights are `h+1, h+2, …`. -/
def Consecutive : Nat → List Block → Prop
  | _, [] => True
  | h, b :: bs => b.height.toNat = h + 1 ∧ Consecutive (h + 1) bs

/-- C77 (partial: only basic accounts send, and value plus fee never wraps around). If the money in existence is what the
emission schedule prescribes at height `h`, then after pushing any number of blocks of consecutive heights it is what the
schedule prescribes at the new height. -/
theorem C77_supply_follows_schedule_partial {n n' : Node} (hn : Reach E n) {blocks : List Block} (hc : Chain E n blocks n')
    (h : Nat) (hh : Consecutive h blocks) (h0 : total (accountOf n) = Policy.Spec.supply h)
    (hbasic : ∀ b ∈ blocks, ∀ body, b.body = some body → ∀ tx ∈ body.txs,
      (tx.getSender E.H).2 = 0 ∧ value tx + fee tx < 2 ^ 64) :
    total (accountOf n') = Policy.Spec.supply (h + blocks.length) := by
  induction hc generalizing h with
  | nil => simpa using h0
  | cons hp _ ih =>
    rename_i n n1 n2 block blocks _
    obtain ⟨hb1, hb2⟩ := hh
    have hm := push_map hn hp
    obtain ⟨body, hbody, hne, s1, _⟩ := push_iff.mp hm
    have hsend : ∀ tx ∈ body.txs, (accountOf n (tx.getSender E.H).1).type = 0 := by
      intro tx ht
      obtain ⟨pre, post, he⟩ := List.append_of_mem ht
      have h1 := (s1 pre tx post he).1
      rw [(hbasic block (List.mem_cons_self ..) body hbody tx ht).1, type_afterSenders] at h1
      rcases h1 with h1 | h1
      · cases h1
      · exact h1.symm
    obtain ⟨c, hr⟩ := rewardAt_node hn hne
    have hs := rewardAt_supply hne
    have hcap := Policy.spec_supply_le_cap block.height.toNat
    have hpred : (block.height - 1).toNat = h := by
      have hlt := block.height.toNat_lt
      rw [UInt32.toNat_sub_of_le _ _ (by rw [UInt32.le_iff_toNat_le]; simp; omega)]
      simp; omega
    rw [hpred] at hs
    have hcv : Policy.Spec.cap < 2 ^ 64 := by decide
    have := C55_conservation_partial hn block body hbody hp hsend
      (fun tx ht => (hbasic block (List.mem_cons_self ..) body hbody tx ht).2) _ c hr (by rw [h0, hs]; omega)
    rw [h0, hs, hb1] at this
    have hn1 : Reach E n1 := by have := Reach.push block hn; rwa [hp] at this
    have i := ih hn1 (h + 1) hb2 this (fun b hb => hbasic b (List.mem_cons_of_mem _ hb))
    rw [i, List.length_cons]
    congr 1; omega

end Nimiq.Accounts
