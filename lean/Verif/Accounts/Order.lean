import Verif.Accounts.Unsigned
import Verif.Accounts.Single
/-!
# C122: the order of the transactions in any block

C66 is about plain transfers; here the transactions are arbitrary (contract senders, contract creations, prunes, amounts
that wrap around).
-/
namespace Nimiq.Accounts.Spec
open Wire

/-- The transactions of a block that create a contract at `a`. -/
def creationsAt (H : Bytes → Hash32) (a : Addr) (txs : List Tx) : List Tx :=
  txs.filter fun tx => tx.getRecipient.1 = a ∧ (tx.content H).flags &&& 0x01 ≠ 0

end Nimiq.Accounts.Spec

namespace Nimiq.Accounts
open Beserial Beserial.Spec Wire Spec

variable {E : Env} {n n' : Node}

/-! ## Two debits of one account commute -/

theorem two_debits {x y b : UInt64} (h1 : x ≤ b) (h2 : y ≤ b - x) : y ≤ b ∧ x ≤ b - y := by
  have h2' := UInt64.le_iff_toNat_le.mp h2
  have h1' := UInt64.le_iff_toNat_le.mp h1
  rw [UInt64.toNat_sub_of_le _ _ h1] at h2'
  have h3 : y ≤ b := UInt64.le_iff_toNat_le.mpr (by omega)
  exact ⟨h3, UInt64.le_iff_toNat_le.mpr (by rw [UInt64.toNat_sub_of_le _ _ h3]; omega)⟩

theorem unlocked_after {c : VestingAccount} {height : UInt32} {x y : UInt64} (h1 : x ≤ amountUnlocked E c height)
    (h2 : y ≤ amountUnlocked E { c with value := c.value - x } height) :
    y ≤ amountUnlocked E c height ∧ x ≤ amountUnlocked E { c with value := c.value - y } height := by
  unfold amountUnlocked at h1 h2 ⊢
  split at h1
  · rename_i hs
    simp only [hs, if_true] at h2 ⊢
    exact ⟨h2, h1⟩
  · rename_i hs
    simp only [hs, if_false] at h2 ⊢
    split at h1
    · rename_i hz
      simp only [hz, if_true] at h2 ⊢
      exact two_debits h1 h2
    · rename_i hz
      simp only [hz, if_false] at h2 ⊢
      exact ⟨h2, h1⟩

/-- If two transactions can be charged to an account in one order, they can in the other. -/
theorem outgoing_swap {acc x y : Account} {t u : Tx} {height : UInt32} (h1 : applyOutgoing E acc t height = .ok x)
    (h2 : applyOutgoing E x u height = .ok y) :
    ∃ x' y', applyOutgoing E acc u height = .ok x' ∧ applyOutgoing E x' t height = .ok y' := by
  cases acc with
  | basic a =>
    obtain ⟨b⟩ := a
    have e1 : t.amount.1 + t.amount.2 ≤ b := by
      have h : basicOutgoing ⟨b⟩ t = _ := h1
      unfold basicOutgoing at h
      simp only [] at h
      split at h
      · cases h
      · rename_i hc; exact UInt64.not_lt.mp hc
    rw [basic_out rfl e1] at h1
    cases h1
    have e2 : u.amount.1 + u.amount.2 ≤ b - (t.amount.1 + t.amount.2) := by
      have h : basicOutgoing ⟨_⟩ u = _ := h2
      unfold basicOutgoing at h
      simp only [] at h
      split at h
      · cases h
      · rename_i hc; exact UInt64.not_lt.mp hc
    obtain ⟨e3, e4⟩ := two_debits e1 e2
    exact ⟨_, _, basic_out rfl e3, basic_out rfl e4⟩
  | vesting c =>
    obtain ⟨t', rfl, hv, hp, rfl⟩ := (C60_debit_iff ..).mp h1
    obtain ⟨u', rfl, hv', hp', rfl⟩ := (C60_debit_iff ..).mp h2
    obtain ⟨k1, k2⟩ := unlocked_after hv hv'
    exact ⟨_, _, (C60_debit_iff ..).mpr ⟨_, rfl, k1, hp', rfl⟩, (C60_debit_iff ..).mpr ⟨_, rfl, k2, hp, rfl⟩⟩
  | htlc c =>
    obtain ⟨t', rfl, hv, hp, rfl⟩ := (C61_debit_iff ..).mp h1
    obtain ⟨u', rfl, hv', hp', rfl⟩ := (C61_debit_iff ..).mp h2
    obtain ⟨k1, k2⟩ := two_debits hv hv'
    have hq : HTLCProof E.H { c with value := c.value - u'.value } height t'.proof :=
      HTLCProof.congr (c := { c with value := c.value - u'.value }) (v := c.value) hp
    exact ⟨_, _, (C61_debit_iff ..).mpr ⟨_, rfl, k1, HTLCProof.congr hp', rfl⟩, (C61_debit_iff ..).mpr ⟨_, rfl, k2, hq, rfl⟩⟩

/-! ## The sender phase -/

/-- Every transaction can be charged after those before it. -/
def SendersOk (E : Env) (height : UInt32) (m : AMap) (txs : List Tx) : Prop :=
  ∀ pre tx post, txs = pre ++ tx :: post → SenderOk E height (afterSenders E.H pre m) tx

theorem afterSenders_nil (H : Bytes → Hash32) (m : AMap) : afterSenders H [] m = m := by
  funext a; simp [afterSenders, sentBy]

theorem sendersOk_cons {height : UInt32} {m : AMap} {tx : Tx} {txs : List Tx} : SendersOk E height m (tx :: txs) ↔
    SenderOk E height m tx ∧ SendersOk E height (afterSenders E.H [tx] m) txs := by
  constructor
  · intro h
    refine ⟨by simpa only [afterSenders_nil] using h [] tx txs rfl, fun pre t post he => ?_⟩
    rw [afterSenders_append]
    exact h (tx :: pre) t post (by rw [he]; rfl)
  · rintro ⟨h1, h2⟩ pre t post he
    cases pre with
    | nil => rw [List.nil_append] at he; cases he; rw [afterSenders_nil]; exact h1
    | cons p pre =>
      rw [List.cons_append] at he; cases he
      have := h2 pre t post rfl
      rw [afterSenders_append] at this
      exact this

theorem afterSenders_other {H : Bytes → Hash32} {tx : Tx} {m : AMap} {a : Addr} (h : (tx.getSender H).1 ≠ a) :
    afterSenders H [tx] m a = m a := by simp [afterSenders, sentBy, h]

theorem afterSenders_self {tx : Tx} {m : AMap} {x : Account} {height : UInt32}
    (h : applyOutgoing E (m (tx.getSender E.H).1) tx height = .ok x) :
    afterSenders E.H [tx] m (tx.getSender E.H).1 = x := by
  rw [applyOutgoing_ok h]; simp [afterSenders, sentBy]

theorem sender_swap {height : UInt32} {m : AMap} {t u : Tx} (h1 : SenderOk E height m t)
    (h2 : SenderOk E height (afterSenders E.H [t] m) u) :
    SenderOk E height m u ∧ SenderOk E height (afterSenders E.H [u] m) t := by
  obtain ⟨a1, x, a2⟩ := h1
  obtain ⟨b1, y, b2⟩ := h2
  rw [type_afterSenders] at b1
  by_cases hs : (t.getSender E.H).1 = (u.getSender E.H).1
  · rw [← hs, afterSenders_self a2] at b2
    obtain ⟨x', y', c1, c2⟩ := outgoing_swap a2 b2
    rw [hs] at c1
    refine ⟨⟨b1, x', c1⟩, ⟨by rw [type_afterSenders]; exact a1, y', ?_⟩⟩
    rw [hs, afterSenders_self c1]; exact c2
  · rw [afterSenders_other hs] at b2
    exact ⟨⟨b1, y, b2⟩, ⟨by rw [type_afterSenders]; exact a1, x, by rw [afterSenders_other (Ne.symm hs)]; exact a2⟩⟩

theorem sendersOk_perm {height : UInt32} {l1 l2 : List Tx} (h : l1.Perm l2) : ∀ m : AMap,
    SendersOk E height m l1 → SendersOk E height m l2 := by
  induction h with
  | nil => exact fun _ h => h
  | cons x _ ih =>
    intro m h
    rw [sendersOk_cons] at h ⊢
    exact ⟨h.1, ih _ h.2⟩
  | swap x y l =>
    intro m h
    rw [sendersOk_cons, sendersOk_cons, afterSenders_append] at h
    rw [sendersOk_cons, sendersOk_cons, afterSenders_append]
    obtain ⟨k1, k2⟩ := sender_swap h.1 h.2.1
    refine ⟨k1, k2, ?_⟩
    rw [afterSenders_perm (l1 := [x] ++ [y]) (l2 := [y] ++ [x]) (List.Perm.swap y x [])]
    exact h.2.2
  | trans _ _ i1 i2 => exact fun m h => i2 m (i1 m h)

/-! ## The whole push -/

theorem lastCreate_spec (H : Bytes → Hash32) (a : Addr) (txs : List Tx) :
    lastCreate a txs = (creationsAt H a txs).getLast? := by
  unfold lastCreate creationsAt
  congr 1
  apply List.filter_congr
  intro tx _
  have := creates_iff H tx
  by_cases h1 : creates tx = true <;> by_cases h2 : tx.getRecipient.1 = a <;> simp_all

theorem sends_perm {H : Bytes → Hash32} {l1 l2 : List Tx} (h : l1.Perm l2) (a : Addr) : Sends H l1 a ↔ Sends H l2 a :=
  ⟨fun ⟨t, ht, e⟩ => ⟨t, h.mem_iff.mp ht, e⟩, fun ⟨t, ht, e⟩ => ⟨t, h.mem_iff.mpr ht, e⟩⟩

theorem push_perm {m m' : AMap} {height : UInt32} {hash1 hash2 : Hash32} {c : Addr} {l1 l2 : List Tx}
    {pruned : List (Addr × Option Account)} (h : l1.Perm l2) (hl : ∀ a, lastCreate a l1 = lastCreate a l2)
    (hp : push E mapLedger ⟨height, hash1, some ⟨c, l1, pruned⟩⟩ m = (.ok (), m')) :
    push E mapLedger ⟨height, hash2, some ⟨c, l2, pruned⟩⟩ m = (.ok (), m') := by
  obtain ⟨body, hb, h0, s1, s2, s3, s4, s5, s6⟩ := push_iff.mp hp
  cases hb
  have hT : afterTransfers E ⟨height, hash2, some ⟨c, l2, pruned⟩⟩ ⟨c, l2, pruned⟩ m =
      afterTransfers E ⟨height, hash1, some ⟨c, l1, pruned⟩⟩ ⟨c, l1, pruned⟩ m := by
    show afterCreate height l2 (afterRecipients l2 (afterSenders E.H l2 m)) =
      afterCreate height l1 (afterRecipients l1 (afterSenders E.H l1 m))
    rw [afterSenders_perm h, afterRecipients_perm h]
    funext a; unfold afterCreate; rw [hl]
  have hP : ∀ x, afterPrune E.H l2 x = afterPrune E.H l1 x := by
    intro x; funext a; unfold afterPrune; rw [propext (sends_perm (H := E.H) h a)]
  refine push_iff.mpr ⟨_, rfl, h0, sendersOk_perm h m s1, fun tx ht => s2 tx (h.mem_iff.mpr ht),
    fun tx ht => s3 tx (h.mem_iff.mpr ht), ?_, ?_, ?_⟩
  · rw [hT]
    exact ⟨fun a ha hd => s4.1 a ((sends_perm h a).mpr ha) hd, fun a ha =>
      ⟨(sends_perm h a).mp (s4.2 a ha).1, (s4.2 a ha).2⟩⟩
  · rw [hT, hP]; exact s5
  · rw [hT, hP, s6]
    unfold afterInherents
    simp only []
    rw [sum_perm (h.map _)]

/-- C122. Two blocks of the same height, miner and prune list with the same transactions in different order; for every address,
the last of the transactions that create a contract there is the same in both. Then either both blocks are pushed or none, and
if they are, all accounts and the state hash are the same afterwards. -/
theorem C122_order (hn : Reach E n) (height : UInt32) (hash1 hash2 : Hash32) (c : Addr)
    (pruned : List (Addr × Option Account)) (l1 l2 : List Tx) (h : l1.Perm l2)
    (hl : ∀ a, (creationsAt E.H a l1).getLast? = (creationsAt E.H a l2).getLast?) :
    let block1 : Block := ⟨height, hash1, some ⟨c, l1, pruned⟩⟩
    let block2 : Block := ⟨height, hash2, some ⟨c, l2, pruned⟩⟩
    ((Push E block1 n).1 = .ok () ↔ (Push E block2 n).1 = .ok ()) ∧
    ((Push E block1 n).1 = .ok () →
      (∀ a, (Node.getAccount a (Push E block1 n).2).1 = (Node.getAccount a (Push E block2 n).2).1) ∧
      (Node.hash E.H (Push E block1 n).2).1 = (Node.hash E.H (Push E block2 n).2).1) := by
  intro block1 block2
  have hl' : ∀ a, lastCreate a l1 = lastCreate a l2 := fun a => by rw [lastCreate_spec E.H, lastCreate_spec E.H, hl]
  have q1 := hn.acc.push block1
  have q2 := hn.acc.push block2
  have k12 : (push E mapLedger block1 (accountOf n)).1 = .ok () →
      push E mapLedger block2 (accountOf n) = push E mapLedger block1 (accountOf n) := fun hok => by
    rw [push_perm (hash2 := hash2) h hl' (Prod.ext hok rfl)]
    exact Prod.ext hok.symm rfl
  have k21 : (push E mapLedger block2 (accountOf n)).1 = .ok () →
      push E mapLedger block1 (accountOf n) = push E mapLedger block2 (accountOf n) := fun hok => by
    rw [push_perm (hash2 := hash1) h.symm (fun a => (hl' a).symm) (Prod.ext hok rfl)]
    exact Prod.ext hok.symm rfl
  refine ⟨?_, fun hok => ?_⟩
  · rw [q1.1, q2.1]
    exact ⟨fun hok => by rw [k12 hok]; exact hok, fun hok => by rw [k21 hok]; exact hok⟩
  · rw [q1.1] at hok
    have r2 := q2.2
    rw [k12 hok] at r2
    exact ⟨fun a => by rw [q1.2.getAccount, r2.getAccount], by rw [q1.2.hash, r2.hash]⟩

theorem creations_perm {H : Bytes → Hash32} {l1 l2 : List Tx} (h : l1.Perm l2)
    (hone : ∀ a, (creationsAt H a l1).length ≤ 1) (a : Addr) : creationsAt H a l1 = creationsAt H a l2 := by
  have hp : (creationsAt H a l1).Perm (creationsAt H a l2) := h.filter _
  have h1 := hone a
  rcases hc : creationsAt H a l1 with _ | ⟨x, _ | ⟨y, l⟩⟩
  · rw [hc] at hp; exact hp.nil_eq
  · rw [hc] at hp; exact List.singleton_perm.mp hp
  · rw [hc] at h1; simp at h1

/-- C122. In particular the order does not matter at all if no two transactions create a contract at the same address. -/
theorem C122_order_free (hn : Reach E n) (height : UInt32) (hash1 hash2 : Hash32) (c : Addr)
    (pruned : List (Addr × Option Account)) (l1 l2 : List Tx) (h : l1.Perm l2)
    (hone : ∀ a, (creationsAt E.H a l1).length ≤ 1) :
    let block1 : Block := ⟨height, hash1, some ⟨c, l1, pruned⟩⟩
    let block2 : Block := ⟨height, hash2, some ⟨c, l2, pruned⟩⟩
    ((Push E block1 n).1 = .ok () ↔ (Push E block2 n).1 = .ok ()) ∧
    ((Push E block1 n).1 = .ok () →
      (∀ a, (Node.getAccount a (Push E block1 n).2).1 = (Node.getAccount a (Push E block2 n).2).1) ∧
      (Node.hash E.H (Push E block1 n).2).1 = (Node.hash E.H (Push E block2 n).2).1) :=
  C122_order hn height hash1 hash2 c pruned l1 l2 h fun a => by rw [creations_perm h hone a]

/-! ## When the order does matter -/

/-- A transaction by which the basic account `s` puts `v` into a vesting contract at `a` owned by `owner`. -/
def vestTx (s a owner : Addr) (v : UInt64) (step : UInt32) : Tx :=
  .extended ⟨owner.val ++ digits 4 step.toNat, s, 0, a, 1, v, 0, 1, 1, 1, []⟩

/-- The order matters if two transactions create contracts at one address: both are executed, the money of both goes there, and
the contract is that of the last one. For any two owners, any two such transactions of a basic account that can pay them. -/
theorem C122_last_creation_wins (hn : Reach E n) (s a c o1 o2 : Addr) (v b : UInt64) (step height : UInt32)
    (h0 : height ≠ 0) (hs : accountOf n s = .basic ⟨b⟩) (ha : accountOf n a = .basic ⟨0⟩) (hc : (accountOf n c).type = 0)
    (hsa : s ≠ a) (hca : c ≠ a) (hv : v.toNat + v.toNat ≤ b.toNat) (hash : Hash32) :
    let block : Block := ⟨height, hash, some ⟨c, [vestTx s a o1 v step, vestTx s a o2 v step], []⟩⟩
    (Push E block n).1 = .ok () ∧
    accountOf (Push E block n).2 a = .vesting ⟨v + v, o2, 0, step, v, v⟩ := by
  intro block
  have q := hn.push_eq block
  generalize hm : accountOf n = m at *
  have hcr : ∀ o, creates (vestTx s a o v step) = true := fun _ => by
    show ((1 : UInt8) &&& 0x01 != 0) = true; decide
  have hco : ∀ o bal, contractOf (vestTx s a o v step) height bal = .ok (.vesting ⟨bal, o, 0, step, v, v⟩) := fun o bal =>
    (contractOf_iff (hcr o)).mpr ⟨_, rfl, rfl, .short o step⟩
  have hsender : ∀ o, ((vestTx s a o v step).getSender E.H) = (s, 0) := fun _ => rfl
  have hamt : ∀ o, (vestTx s a o v step).amount.1 + (vestTx s a o v step).amount.2 = v := fun o => by
    show v + 0 = v; simp
  have hvb : v ≤ b := UInt64.le_iff_toNat_le.mpr (by omega)
  have hvb' : v ≤ b - v := UInt64.le_iff_toNat_le.mpr (by rw [UInt64.toNat_sub_of_le _ _ hvb]; omega)
  have hS : SendersOk E height m [vestTx s a o1 v step, vestTx s a o2 v step] := by
    have hx1 : applyOutgoing E (m ((vestTx s a o1 v step).getSender E.H).1) (vestTx s a o1 v step) height =
        .ok (.basic ⟨b - v⟩) := by
      show applyOutgoing E (m s) _ height = _
      rw [hs, basic_out (hamt o1) hvb]
    have hx2 := afterSenders_self hx1
    rw [sendersOk_cons, sendersOk_cons]
    refine ⟨⟨.inr ?_, _, hx1⟩, ⟨.inr ?_, .basic ⟨b - v - v⟩, ?_⟩, fun pre t post he => ?_⟩
    · show 0 = (m s).type
      rw [hs]; rfl
    · rw [type_afterSenders]
      show 0 = (m s).type
      rw [hs]; rfl
    · show applyOutgoing E (afterSenders E.H _ m s) _ height = _
      rw [show afterSenders E.H [vestTx s a o1 v step] m s = _ from hx2, basic_out (hamt o2) hvb']
    · cases pre <;> cases he
  have hlast : ∀ d, lastCreate d [vestTx s a o1 v step, vestTx s a o2 v step] =
      if a = d then some (vestTx s a o2 v step) else none := by
    intro d
    by_cases h : a = d
    · rw [lastCreate_cons_pos ⟨hcr _, h⟩, lastCreate_cons_pos ⟨hcr _, h⟩, if_pos h]; rfl
    · have hno : ∀ o, ¬ (creates (vestTx s a o v step) = true ∧ (vestTx s a o v step).getRecipient.1 = d) := fun o hd => h hd.2
      rw [lastCreate_cons_neg (hno o1), lastCreate_cons_neg (hno o2), if_neg h]; rfl
  have hTa : afterTransfers E block ⟨c, [vestTx s a o1 v step, vestTx s a o2 v step], []⟩ m a =
      .vesting ⟨v + v, o2, 0, step, v, v⟩ := by
    show afterCreate height _ _ a = _
    unfold afterCreate
    rw [hlast, if_pos rfl]
    simp only [hco]
    congr 2
    show balance (afterRecipients _ _ a) = _
    have hr : receivedBy a [vestTx s a o1 v step, vestTx s a o2 v step] = [vestTx s a o1 v step, vestTx s a o2 v step] := by
      simp [receivedBy, vestTx, Tx.getRecipient]
    unfold afterRecipients
    rw [hr, balance_withBalance]
    have : afterSenders E.H [vestTx s a o1 v step, vestTx s a o2 v step] m a = .basic ⟨0⟩ := by
      have hno : sentBy E.H a [vestTx s a o1 v step, vestTx s a o2 v step] = [] := by
        simp [sentBy, hsender, hsa]
      unfold afterSenders
      rw [hno]
      simp [ha]
    rw [this]
    show (0 : UInt64) + (v + (v + 0)) = v + v
    simp
  have hTo : ∀ d, d ≠ a → (afterTransfers E block ⟨c, [vestTx s a o1 v step, vestTx s a o2 v step], []⟩ m d).type =
      (m d).type := by
    intro d hd
    show (afterCreate height _ _ d).type = _
    unfold afterCreate
    rw [hlast, if_neg (Ne.symm hd)]
    show (afterRecipients _ (afterSenders E.H _ m) d).type = _
    rw [type_afterRecipients, type_afterSenders]
  have hnd : ∀ d, ¬ (Sends E.H [vestTx s a o1 v step, vestTx s a o2 v step] d ∧
      Dead (afterTransfers E block ⟨c, [vestTx s a o1 v step, vestTx s a o2 v step], []⟩ m d)) := by
    rintro d ⟨⟨t, ht, htd⟩, hdd⟩
    have : s = d := by
      simp only [List.mem_cons, List.not_mem_nil, or_false] at ht
      rcases ht with rfl | rfl <;> exact htd
    subst this
    exact hdd.2 (by rw [hTo _ hsa, hs]; rfl)
  have hP : afterPrune E.H [vestTx s a o1 v step, vestTx s a o2 v step]
      (afterTransfers E block ⟨c, [vestTx s a o1 v step, vestTx s a o2 v step], []⟩ m) =
      afterTransfers E block ⟨c, [vestTx s a o1 v step, vestTx s a o2 v step], []⟩ m := by
    funext d; unfold afterPrune; rw [if_neg (hnd d)]
  have hp : push E mapLedger block m = (.ok (), afterInherents height ⟨c, [vestTx s a o1 v step, vestTx s a o2 v step], []⟩
      (afterTransfers E block ⟨c, [vestTx s a o1 v step, vestTx s a o2 v step], []⟩ m)) := by
    refine push_iff.mpr ⟨_, rfl, h0, hS, fun t ht => ?_, fun t ht _ => ?_, ?_, ?_, ?_⟩
    · simp only [List.mem_cons, List.not_mem_nil, or_false] at ht
      have h1 : t.getRecipient.1 = a := by rcases ht with rfl | rfl <;> rfl
      have h2 : creates t = true := by rcases ht with rfl | rfl <;> exact hcr _
      exact ⟨by rw [h1, ha]; rfl, .inl h2⟩
    · simp only [List.mem_cons, List.not_mem_nil, or_false] at ht
      rcases ht with rfl | rfl <;> exact ⟨_, hco _ 0⟩
    · exact ⟨fun d h1 h2 => absurd ⟨h1, h2⟩ (hnd d), fun d h => absurd rfl h⟩
    · simp only [hP]
      rw [hTo _ hca]; exact hc
    · simp only [hP]; rfl
  rw [hp] at q
  refine ⟨q.1, ?_⟩
  rw [q.2]
  show afterInherents _ _ _ a = _
  unfold afterInherents
  rw [AMap.set_ne (a := c) _ _ (Ne.symm hca)]
  exact hTa

/-- Two orders, two results. -/
theorem C122_order_matters (hn : Reach E n) (s a c o1 o2 : Addr) (v b : UInt64) (step height : UInt32)
    (h0 : height ≠ 0) (hs : accountOf n s = .basic ⟨b⟩) (ha : accountOf n a = .basic ⟨0⟩) (hc : (accountOf n c).type = 0)
    (hsa : s ≠ a) (hca : c ≠ a) (hv : v.toNat + v.toNat ≤ b.toNat) (hash : Hash32) (ho : o1 ≠ o2) :
    let block1 : Block := ⟨height, hash, some ⟨c, [vestTx s a o1 v step, vestTx s a o2 v step], []⟩⟩
    let block2 : Block := ⟨height, hash, some ⟨c, [vestTx s a o2 v step, vestTx s a o1 v step], []⟩⟩
    (Push E block1 n).1 = .ok () ∧ (Push E block2 n).1 = .ok () ∧
    accountOf (Push E block1 n).2 a ≠ accountOf (Push E block2 n).2 a := by
  intro block1 block2
  obtain ⟨p1, p2⟩ := C122_last_creation_wins hn s a c o1 o2 v b step height h0 hs ha hc hsa hca hv hash
  obtain ⟨q1, q2⟩ := C122_last_creation_wins hn s a c o2 o1 v b step height h0 hs ha hc hsa hca hv hash
  refine ⟨p1, q1, fun he => ho ?_⟩
  have : Account.vesting ⟨v + v, o2, 0, step, v, v⟩ = .vesting ⟨v + v, o1, 0, step, v, v⟩ := p2.symm.trans (he.trans q2)
  injection this with this
  injection this with _ h
  exact h.symm

/-- The hypotheses of `C122_last_creation_wins` are met. -/
example (E : Env) (s a c : Addr) (hsa : s ≠ a) (hsc : s ≠ c) : ∃ n, Reach E n ∧ accountOf n s = .basic ⟨7⟩ ∧
    accountOf n a = .basic ⟨0⟩ ∧ (accountOf n c).type = 0 :=
  ⟨(Node.putAccount E.H s (some (.basic ⟨7⟩)) newNode).2, .put _ _ .new, by rw [accountOf_put .new, AMap.set_same],
    by rw [accountOf_put .new, AMap.set_ne _ _ (Ne.symm hsa), accountOf_new],
    by rw [accountOf_put .new, AMap.set_ne _ _ (Ne.symm hsc), accountOf_new]; rfl⟩

end Nimiq.Accounts
