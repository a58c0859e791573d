import Verif.Accounts.Complete
import Verif.Accounts.Props
/-!
# C66, C76: blocks of plain transfers

A block whose senders are basic accounts and which creates no contracts.

A concrete block that meets the hypotheses of these theorems, and the theorems applied to it: Accounts/Witness.lean.
-/
namespace Nimiq.Accounts
open Beserial Wire Spec

variable {E : Env} {n n' : Node}

/-! ## When basic accounts can pay -/

/-- Debits of one balance, in order, never exceed what is left, iff their sum does not exceed the balance. -/
theorem debits_iff : ∀ (l : List UInt64) (b : UInt64),
    (∀ pre x post, l = pre ++ x :: post → x ≤ b - pre.sum) ↔ (l.map (·.toNat)).sum ≤ b.toNat := by
  intro l
  induction l with
  | nil => intro b; simp
  | cons y l ih =>
    intro b
    have hsplit : (∀ pre x post, y :: l = pre ++ x :: post → x ≤ b - pre.sum) ↔
        (y ≤ b ∧ ∀ pre x post, l = pre ++ x :: post → x ≤ (b - y) - pre.sum) := by
      constructor
      · intro h
        refine ⟨by simpa using h [] y l rfl, fun pre x post he => ?_⟩
        have := h (y :: pre) x post (by rw [he]; rfl)
        rw [List.sum_cons] at this
        have e : b - (y + pre.sum) = b - y - pre.sum := by grind
        rwa [e] at this
      · rintro ⟨h1, h2⟩ pre x post he
        cases pre with
        | nil => rw [List.nil_append] at he; cases he; simpa using h1
        | cons p pre =>
          rw [List.cons_append] at he; cases he
          have := h2 pre x post rfl
          rw [List.sum_cons]
          have e : b - (y + pre.sum) = b - y - pre.sum := by grind
          rwa [e]
    rw [hsplit, ih, List.map_cons, List.sum_cons]
    constructor
    · rintro ⟨h1, h2⟩
      rw [UInt64.toNat_sub_of_le _ _ h1] at h2
      rw [UInt64.le_iff_toNat_le] at h1
      omega
    · intro h
      have h1 : y ≤ b := by rw [UInt64.le_iff_toNat_le]; omega
      refine ⟨h1, ?_⟩
      rw [UInt64.toNat_sub_of_le _ _ h1]
      omega

theorem filter_split {α : Type} {p : α → Bool} : ∀ {l pre post : List α} {x : α}, l.filter p = pre ++ x :: post →
    ∃ l1 l2, l = l1 ++ x :: l2 ∧ l1.filter p = pre := by
  intro l pre post x h
  obtain ⟨l1, l2, rfl, h1, h2⟩ := List.filter_eq_append_iff.mp h
  obtain ⟨l3, l4, rfl, h3, h4, h5⟩ := List.filter_eq_cons_iff.mp h2
  refine ⟨l1 ++ l3, l4, by simp, ?_⟩
  rw [List.filter_append, h1]
  have : l3.filter p = [] := List.filter_eq_nil_iff.mpr h3
  rw [this, List.append_nil]

/-- The sender phase for basic senders: all declared types must fit and every sender must cover what it sends. -/
theorem basic_senders_iff {height : UInt32} {txs : List Tx} {m : AMap}
    (hb : ∀ tx ∈ txs, (m (tx.getSender E.H).1).type = 0) :
    (∀ pre tx post, txs = pre ++ tx :: post → SenderOk E height (afterSenders E.H pre m) tx) ↔
      (∀ tx ∈ txs, (tx.getSender E.H).2 = 0xFF ∨ (tx.getSender E.H).2 = 0) ∧
      ∀ a, ((sentBy E.H a txs).map fun tx => (value tx + fee tx) % 2 ^ 64).sum ≤ funds (m a) := by
  have hval : ∀ tx : Tx, (tx.amount.1 + tx.amount.2).toNat = (value tx + fee tx) % 2 ^ 64 := by
    intro tx; rw [UInt64.toNat_add]; rfl
  have hstep : ∀ pre tx, tx ∈ txs → (SenderOk E height (afterSenders E.H pre m) tx ↔
      ((tx.getSender E.H).2 = 0xFF ∨ (tx.getSender E.H).2 = 0) ∧
      tx.amount.1 + tx.amount.2 ≤ balance (m (tx.getSender E.H).1) -
        ((sentBy E.H (tx.getSender E.H).1 pre).map fun t : Tx => t.amount.1 + t.amount.2).sum) := by
    intro pre tx ht
    unfold SenderOk
    rw [type_afterSenders, hb tx ht]
    refine and_congr_right fun _ => ?_
    have h0 := hb tx ht
    cases hm : m (tx.getSender E.H).1 with
    | vesting a => rw [hm] at h0; cases h0
    | htlc a => rw [hm] at h0; cases h0
    | basic a =>
      have hd : debit (Account.basic a) = fun t : Tx => t.amount.1 + t.amount.2 := by funext t; rfl
      have e : afterSenders E.H pre m (tx.getSender E.H).1 = .basic ⟨a.value -
          ((sentBy E.H (tx.getSender E.H).1 pre).map fun t : Tx => t.amount.1 + t.amount.2).sum⟩ := by
        unfold afterSenders
        rw [hm, hd]; rfl
      rw [e]
      simp only [applyOutgoing, basicOutgoing, balance]
      constructor
      · rintro ⟨x, hx⟩
        split at hx
        · cases hx
        · rename_i hc; exact UInt64.not_lt.mp hc
      · intro hle
        rw [if_neg (UInt64.not_lt.mpr hle)]
        exact ⟨_, rfl⟩
  constructor
  · intro h
    refine ⟨fun tx ht => ?_, fun a => ?_⟩
    · obtain ⟨pre, post, he⟩ := List.append_of_mem ht
      exact ((hstep pre tx ht).mp (h pre tx post he)).1
    · rw [funds_eq]
      have := (debits_iff ((sentBy E.H a txs).map fun t : Tx => t.amount.1 + t.amount.2) (balance (m a))).mp ?_
      · rw [List.map_map] at this
        convert this using 3
        funext tx; exact (hval tx).symm
      · intro pre x post he
        obtain ⟨l1, l2, h1, rfl, h2⟩ := List.map_eq_append_iff.mp he
        obtain ⟨t, l3, rfl, rfl, rfl⟩ := List.map_eq_cons_iff.mp h2
        obtain ⟨q1, q2, hq, rfl⟩ := filter_split h1
        have ht : t ∈ txs := by rw [hq]; simp
        have hta : (t.getSender E.H).1 = a := by
          have : t ∈ sentBy E.H a txs := by rw [h1]; simp
          simpa using (List.mem_filter.mp this).2
        have := ((hstep q1 t ht).mp (h q1 t q2 hq)).2
        rw [hta] at this
        exact this
  · rintro ⟨h1, h2⟩ pre tx post he
    have ht : tx ∈ txs := by rw [he]; simp
    refine (hstep pre tx ht).mpr ⟨h1 tx ht, ?_⟩
    have := h2 (tx.getSender E.H).1
    rw [funds_eq] at this
    have h3 := (debits_iff ((sentBy E.H (tx.getSender E.H).1 txs).map fun t : Tx => t.amount.1 + t.amount.2)
      (balance (m (tx.getSender E.H).1))).mpr (by
        rw [List.map_map]
        convert this using 3
        funext tx; exact hval tx)
    refine h3 _ _ ((sentBy E.H (tx.getSender E.H).1 post).map fun t : Tx => t.amount.1 + t.amount.2) ?_
    rw [he]
    simp [sentBy]

/-! ## No contract is created or pruned -/

theorem lastCreate_none {txs : List Tx} (h : ∀ tx ∈ txs, creates tx = false) (a : Addr) : lastCreate a txs = none := by
  unfold lastCreate
  rw [List.filter_eq_nil_iff.mpr]
  · rfl
  · intro tx ht; simp [h tx ht]

theorem afterCreate_none {height : UInt32} {txs : List Tx} (h : ∀ tx ∈ txs, creates tx = false) (m : AMap) :
    afterCreate height txs m = m := by
  funext a; unfold afterCreate; rw [lastCreate_none h]

/-- Success of a push of plain transfers, and its result. -/
theorem plain_push_iff {block : Block} {body : Body} (hbody : block.body = some body) {m m' : AMap}
    (hb : ∀ tx ∈ body.txs, (m (tx.getSender E.H).1).type = 0) (hc : ∀ tx ∈ body.txs, creates tx = false) :
    push E mapLedger block m = (.ok (), m') ↔
      block.height ≠ 0 ∧
      (∀ tx ∈ body.txs, (tx.getSender E.H).2 = 0xFF ∨ (tx.getSender E.H).2 = 0) ∧
      (∀ a, ((sentBy E.H a body.txs).map fun tx => (value tx + fee tx) % 2 ^ 64).sum ≤ funds (m a)) ∧
      (∀ tx ∈ body.txs, (m tx.getRecipient.1).type = 0 ∧ (tx.getRecipient.2 = 0 ∨ tx.getRecipient.2 = 0xFF)) ∧
      body.pruned = [] ∧ (m body.minerAddr).type = 0 ∧
      m' = afterInherents block.height body (afterRecipients body.txs (afterSenders E.H body.txs m)) := by
  have hat : afterTransfers E block body m = afterRecipients body.txs (afterSenders E.H body.txs m) :=
    afterCreate_none hc _
  have hty : ∀ a, (afterRecipients body.txs (afterSenders E.H body.txs m) a).type = (m a).type := by
    intro a; rw [type_afterRecipients, type_afterSenders]
  have hnd : ∀ a, ¬ (Sends E.H body.txs a ∧ Dead (afterRecipients body.txs (afterSenders E.H body.txs m) a)) := by
    rintro a ⟨⟨tx, ht, rfl⟩, hd⟩
    exact hd.2 (by rw [hty]; exact hb tx ht)
  have hap : afterPrune E.H body.txs (afterRecipients body.txs (afterSenders E.H body.txs m)) =
      afterRecipients body.txs (afterSenders E.H body.txs m) := by
    funext a; unfold afterPrune; rw [if_neg (hnd a)]
  have hpr : PruneOk E.H body (afterRecipients body.txs (afterSenders E.H body.txs m)) ↔ body.pruned = [] := by
    constructor
    · rintro ⟨_, h⟩
      cases hp : body.pruned with
      | nil => rfl
      | cons e es =>
        have : quoted body.pruned e.1 ≠ none := by
          unfold quoted
          rw [hp, List.filter_cons_of_pos (by simp), List.getLast?_cons]
          simp
        exact absurd (h _ this) (hnd _)
    · intro hp
      refine ⟨fun a h1 h2 => absurd ⟨h1, h2⟩ (hnd a), fun a h => ?_⟩
      rw [hp] at h; exact absurd rfl h
  rw [push_iff]
  constructor
  · rintro ⟨body', hb', h0, s1, s2, s3, s4, s5, s6⟩
    rw [hbody] at hb'; cases hb'
    rw [hat, hap] at s5 s6
    rw [hat] at s4
    rw [hty] at s5
    obtain ⟨t1, t2⟩ := (basic_senders_iff hb).mp s1
    refine ⟨h0, t1, t2, fun tx ht => ?_, hpr.mp s4, s5, s6⟩
    obtain ⟨r1, r2⟩ := s2 tx ht
    refine ⟨r1, r2.resolve_left ?_⟩
    rw [hc tx ht]; simp
  · rintro ⟨h0, t1, t2, t3, t4, t5, t6⟩
    refine ⟨body, hbody, h0, (basic_senders_iff hb).mpr ⟨t1, t2⟩, fun tx ht => ⟨(t3 tx ht).1, .inr (t3 tx ht).2⟩, ?_, ?_, ?_,
      ?_⟩
    · intro tx ht h; rw [hc tx ht] at h; cases h
    · rw [hat]; exact hpr.mpr t4
    · rw [hat, hap, hty]; exact t5
    · rw [hat, hap]; exact t6

/-! ## C66 -/

theorem sentBy_perm {H : Bytes → Hash32} {l1 l2 : List Tx} (h : l1.Perm l2) (a : Addr) :
    (sentBy H a l1).Perm (sentBy H a l2) := h.filter _

theorem sum_perm {l1 l2 : List UInt64} (h : l1.Perm l2) : l1.sum = l2.sum := by
  induction h with
  | nil => rfl
  | cons x _ ih => rw [List.sum_cons, List.sum_cons, ih]
  | swap x y l => simp only [List.sum_cons]; grind
  | trans _ _ i1 i2 => exact i1.trans i2

theorem afterSenders_perm {H : Bytes → Hash32} {l1 l2 : List Tx} (h : l1.Perm l2) (m : AMap) :
    afterSenders H l1 m = afterSenders H l2 m := by
  funext a; unfold afterSenders; rw [sum_perm ((sentBy_perm h a).map _)]

theorem afterRecipients_perm {l1 l2 : List Tx} (h : l1.Perm l2) (m : AMap) :
    afterRecipients l1 m = afterRecipients l2 m := by
  funext a; unfold afterRecipients receivedBy; rw [sum_perm ((h.filter _).map _)]

/-- C66. Two blocks of the same height, miner and prune list, whose transactions are the same up to order; all senders are
basic accounts and no transaction creates a contract. Then either both are pushed or none, and if they are, the accounts
and the state hash are the same afterwards. -/
theorem C66_order_irrelevant (hn : Reach E n) (block1 block2 : Block) (body1 body2 : Body)
    (h1 : block1.body = some body1) (h2 : block2.body = some body2) (hh : block1.height = block2.height)
    (hmin : body1.minerAddr = body2.minerAddr) (hpr : body1.pruned = body2.pruned) (hperm : body1.txs.Perm body2.txs)
    (hbasic : ∀ tx ∈ body1.txs, (accountOf n (tx.getSender E.H).1).type = 0)
    (hplain : ∀ tx ∈ body1.txs, (tx.content E.H).flags &&& 0x01 = 0) :
    ((Push E block1 n).1 = .ok () ↔ (Push E block2 n).1 = .ok ()) ∧
    ((Push E block1 n).1 = .ok () →
      (∀ a, accountOf (Push E block1 n).2 a = accountOf (Push E block2 n).2 a) ∧
      (Node.hash E.H (Push E block1 n).2).1 = (Node.hash E.H (Push E block2 n).2).1) := by
  have hc1 : ∀ tx ∈ body1.txs, creates tx = false := by
    intro tx ht
    by_contra hc
    exact (creates_iff E.H tx).mp (by simpa using hc) (hplain tx ht)
  have hc2 : ∀ tx ∈ body2.txs, creates tx = false := fun tx ht => hc1 tx (hperm.mem_iff.mpr ht)
  have hb2 : ∀ tx ∈ body2.txs, (accountOf n (tx.getSender E.H).1).type = 0 := fun tx ht => hbasic tx (hperm.mem_iff.mpr ht)
  have p1 := fun m' => plain_push_iff (m' := m') h1 hbasic hc1
  have p2 := fun m' => plain_push_iff (m' := m') h2 hb2 hc2
  have hs : ∀ a, ((sentBy E.H a body1.txs).map fun tx => (value tx + fee tx) % 2 ^ 64).sum =
      ((sentBy E.H a body2.txs).map fun tx => (value tx + fee tx) % 2 ^ 64).sum :=
    fun a => ((sentBy_perm hperm a).map _).sum_eq
  have hai : ∀ m, afterInherents block1.height body1 m = afterInherents block2.height body2 m := by
    intro m; unfold afterInherents; rw [hmin, hh, sum_perm (hperm.map _)]
  have key : ∀ m', push E mapLedger block1 (accountOf n) = (.ok (), m') ↔
      push E mapLedger block2 (accountOf n) = (.ok (), m') := by
    intro m'
    rw [p1, p2, hh, hmin, hpr, afterSenders_perm hperm, afterRecipients_perm hperm]
    simp only [hperm.mem_iff, hs, ← hh, hai]
  have q1 := hn.acc.push block1
  have q2 := hn.acc.push block2
  have heq : push E mapLedger block1 (accountOf n) = (.ok (), (push E mapLedger block1 (accountOf n)).2) →
      push E mapLedger block1 (accountOf n) = push E mapLedger block2 (accountOf n) := by
    intro h; rw [(key _).mp h]; exact h
  refine ⟨?_, ?_⟩
  · rw [q1.1, q2.1]
    constructor
    · intro h
      have := (key _).mp (Prod.ext h rfl)
      rw [this]
    · intro h
      have := (key _).mpr (Prod.ext h rfl)
      rw [this]
  · intro h
    rw [q1.1] at h
    have e := heq (Prod.ext h rfl)
    have r2 := q2.2
    rw [← e] at r2
    exact ⟨fun a => by rw [q1.2.accountOf, r2.accountOf], by rw [q1.2.hash, r2.hash]⟩

end Nimiq.Accounts
