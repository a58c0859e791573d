import Verif.Accounts.Tentative
import Verif.Tree.MidFlush
import Verif.Accounts.Exact
import Verif.Accounts.Forks
/-!
# C143, accounts: a block that is written down node by node

A block is pushed on an overlay, and `Flush` then writes the overlay to the store of the accounts. Another goroutine that reads
the accounts meanwhile, or a new process that finds what a crash has left in a persistent store, sees some of the nodes.
-/
namespace Nimiq.Accounts
open Beserial Beserial.Spec Wire Spec Tree.Generic

variable {E : Env} {n : Node}

theorem getAccount_of_mixed {n : Node} {b : Addr} {x y : Account} {c : Prop} [Decidable c] {t : Tree.World}
    (h : Tree.getEntry b n.tree = some (let v := if c then entryOf x else entryOf y; if v = [] then none else some v, t)) :
    (Node.getAccount b n).1 = .ok (if c then x else y) := by
  by_cases hc : c
  · rw [if_pos hc]; simp only [if_pos hc] at h; exact getAccount_of_entry h
  · rw [if_neg hc]; simp only [if_neg hc] at h; exact getAccount_of_entry h

/-- C143. A block is pushed on an overlay over the store of the accounts, and `Flush` writes it down in any order. In its `i`-th
state `GetAccount` on the store below gives, without error or panic, the account after the push for the addresses whose nodes are
among the first `(i + 1) / 2`, and the account before the push for all others. -/
theorem C143_push_partial (hn : Reach E n) (block : Block) :
    let r := Push E block (tentative n)
    r.1 = (Push E block n).1 ∧ ∃ d, r.2.tree.store = .overlay n.tree.store (some d) ∧ ∀ order, order.Perm d →
      ∀ i s, (Tree.flushStates order n.tree.store d)[i]? = some s → ∃ lower d', s = .overlay lower (some d') ∧
        ∀ b, (Node.getAccount b (backOn lower r.2)).1 = .ok
          (if Tree.Spec.nibbles b ∈ (order.take ((i + 1) / 2)).map (·.1) then accountOf (Push E block n).2 b else accountOf n b) := by
  intro r
  obtain ⟨h1, -, q, hq, hM⟩ := tentative_spec hn block
  refine ⟨h1, ?_⟩
  obtain ⟨w', d, e1, e2, -, -, -, e3, -⟩ := Tree.midFlush_spec (H := E.H) hn.acc.tree q
  rw [hq] at e1
  cases e1
  refine ⟨d, e2, fun order ho i s hs => ?_⟩
  obtain ⟨l', d', rfl, e⟩ := e3 order ho i s hs
  refine ⟨l', d', rfl, fun b => ?_⟩
  have := e b
  rw [hM] at this
  exact getAccount_of_mixed this

/-- C143 is false of several accounts together: whatever the block and whatever set of addresses, there are an order of visiting
the entries and a moment in which the accounts of exactly these addresses are as after the block, and all others as before. -/
theorem C143_any_accounts_violated (hn : Reach E n) (block : Block) (S : Addr → Bool) :
    let r := Push E block (tentative n)
    ∃ d order lower d', r.2.tree.store = .overlay n.tree.store (some d) ∧ order.Perm d ∧
      Tree.Store.overlay lower (some d') ∈ Tree.flushStates order n.tree.store d ∧
      ∀ b, (Node.getAccount b (backOn lower r.2)).1 = .ok (if S b then accountOf (Push E block n).2 b else accountOf n b) := by
  intro r
  obtain ⟨-, -, q, hq, hM⟩ := tentative_spec hn block
  obtain ⟨w', d, e1, e2, order, l', d', e3, e4, e5⟩ := Tree.any_subset (H := E.H) hn.acc.tree q S
  rw [hq] at e1
  cases e1
  refine ⟨d, order, l', d', e2, e3, e4, fun b => ?_⟩
  have := e5 b
  rw [hM] at this
  exact getAccount_of_mixed this

/-- C143, the money. A block pays all that a basic account has to another one. There are an order and a moment in which the
payer still has everything and the payee has been paid, and there are an order and a moment in which the money is gone: the payer
has paid and the payee has what it had. -/
theorem C143_money_violated (hn : Reach E n) (a b c : Addr) (v u : UInt64) (height : UInt32) (h0 : height ≠ 0)
    (ha : accountOf n a = .basic ⟨v⟩) (hb : accountOf n b = .basic ⟨u⟩) (hc : (accountOf n c).type = 0)
    (hab : a ≠ b) (hac : a ≠ c) (hbc : b ≠ c) (r : UInt64) (ca : List UInt64)
    (hr : Policy.blockReward n.cache height = .ok (r, ca)) (hlt : total (accountOf n) + r.toNat < 2 ^ 64)
    (hash : Hash32) (proof : Bytes) :
    let block : Block := ⟨height, hash, some ⟨c, [.extended ⟨[], a, 0, b, 0, v, 0, 1, 1, 0, proof⟩], []⟩⟩
    let after := Push E block (tentative n)
    after.1 = .ok () ∧ ∃ d, after.2.tree.store = .overlay n.tree.store (some d) ∧
      (∃ order lower d', order.Perm d ∧ Tree.Store.overlay lower (some d') ∈ Tree.flushStates order n.tree.store d ∧
        (Node.getAccount a (backOn lower after.2)).1 = .ok (.basic ⟨v⟩) ∧
        (Node.getAccount b (backOn lower after.2)).1 = .ok (.basic ⟨u + v⟩)) ∧
      ∃ order lower d', order.Perm d ∧ Tree.Store.overlay lower (some d') ∈ Tree.flushStates order n.tree.store d ∧
        (Node.getAccount a (backOn lower after.2)).1 = .ok (.basic ⟨0⟩) ∧
        (Node.getAccount b (backOn lower after.2)).1 = .ok (.basic ⟨u⟩) := by
  intro block after
  let tx : Tx := .extended ⟨[], a, 0, b, 0, v, 0, 1, 1, 0, proof⟩
  have hsend : ∀ t ∈ [tx], (accountOf n (t.getSender E.H).1).type = 0 ∧ (t.getSender E.H).2 = 0 := by
    intro t ht
    rw [List.mem_singleton] at ht
    subst ht
    refine ⟨?_, rfl⟩
    show (accountOf n a).type = 0
    rw [ha]; rfl
  have hrecv : ∀ t ∈ [tx], (accountOf n t.getRecipient.1).type = 0 ∧ t.getRecipient.2 = 0 ∧
      (t.content E.H).flags &&& 0x01 = 0 := by
    intro t ht
    rw [List.mem_singleton] at ht
    subst ht
    refine ⟨?_, rfl, by show (0 : UInt8) &&& 1 = 0; decide⟩
    show (accountOf n b).type = 0
    rw [hb]; rfl
  have hval : value tx = v.toNat ∧ fee tx = 0 := ⟨rfl, rfl⟩
  have hwrap : ∀ t ∈ [tx], value t + fee t < 2 ^ 64 := by
    intro t ht
    rw [List.mem_singleton] at ht
    subst ht
    rw [hval.1, hval.2]; exact v.toNat_lt
  have hsw : ∀ x, sentWithFees E.H [tx] x = if a = x then v.toNat else 0 := by
    intro x
    have hs : (tx.getSender E.H).1 = a := rfl
    unfold sentWithFees
    by_cases hx : a = x
    · simp [List.filter_cons, hs, hx, hval]
    · simp [List.filter_cons, hs, hx]
  have hrv : ∀ x, receivedValue [tx] x = if b = x then v.toNat else 0 := by
    intro x
    have hs : tx.getRecipient.1 = b := rfl
    unfold receivedValue
    by_cases hx : b = x
    · simp [List.filter_cons, hs, hx, hval]
    · simp [List.filter_cons, hs, hx]
  have hacc : (Push E block n).1 = .ok () := by
    refine (C76_accepted_iff hn block _ rfl h0 rfl hc hsend hrecv hwrap).mpr fun x => ?_
    show sentWithFees E.H [tx] x ≤ _
    rw [hsw]
    split
    · rename_i e; rw [← e, ha]; exact Nat.le_refl _
    · exact Nat.zero_le _
  have hbal := C76_balances (n' := (Push E block n).2) hn block _ rfl (Prod.ext hacc rfl) (fun t ht => (hsend t ht).1)
    (fun t ht => (hrecv t ht).2.2) hwrap r ca hr hlt
  have hA : accountOf (Push E block n).2 a = .basic ⟨0⟩ := by
    obtain ⟨t1, -, t2⟩ := hbal a
    have t2' : funds (accountOf (Push E block n).2 a) + sentWithFees E.H [tx] a = funds (accountOf n a) + receivedValue [tx] a +
        if a = c then _ else 0 := t2
    rw [hsw, hrv, if_pos rfl, if_neg (Ne.symm hab), if_neg hac, ha] at t2'
    rw [ha] at t1
    cases hx : accountOf (Push E block n).2 a with
    | basic x =>
      rw [hx] at t2'
      have : x.value.toNat + v.toNat = v.toNat + 0 + 0 := t2'
      have : x.value = 0 := UInt64.toNat_inj.mp (by rw [show (0 : UInt64).toNat = 0 from rfl]; omega)
      cases x; simp only at this; rw [this]
    | vesting x => rw [hx] at t1; cases t1
    | htlc x => rw [hx] at t1; cases t1
  have hB : accountOf (Push E block n).2 b = .basic ⟨u + v⟩ := by
    obtain ⟨t1, -, t2⟩ := hbal b
    have t2' : funds (accountOf (Push E block n).2 b) + sentWithFees E.H [tx] b = funds (accountOf n b) + receivedValue [tx] b +
        if b = c then _ else 0 := t2
    rw [hsw, hrv, if_pos rfl, if_neg hab, if_neg hbc, hb] at t2'
    rw [hb] at t1
    cases hx : accountOf (Push E block n).2 b with
    | basic x =>
      rw [hx] at t2'
      have h1 : x.value.toNat + 0 = u.toNat + v.toNat + 0 := t2'
      have h2 := x.value.toNat_lt
      have : x.value = u + v := UInt64.toNat_inj.mp (by rw [UInt64.toNat_add, Nat.mod_eq_of_lt] <;> omega)
      cases x; simp only at this; rw [this]
    | vesting x => rw [hx] at t1; cases t1
    | htlc x => rw [hx] at t1; cases t1
  obtain ⟨d, o1, l1, d1, f1, f2, f3, f4⟩ := C143_any_accounts_violated hn block (fun x => decide (x = b))
  obtain ⟨d', o2, l2, d2, g1, g2, g3, g4⟩ := C143_any_accounts_violated hn block (fun x => decide (x = a))
  have hd : d = d' := by rw [f1] at g1; cases g1; rfl
  subst hd
  refine ⟨(tentative_spec hn block).1.trans hacc, d, f1, ⟨o1, l1, d1, f2, f3, ?_, ?_⟩, o2, l2, d2, g2, g3, ?_, ?_⟩
  · rw [f4 a, ha]; simp [hab]
  · rw [f4 b, hB]; simp
  · rw [g4 a, hA]; simp
  · rw [g4 b, hb]; simp [Ne.symm hab]

/-- The hypotheses can be met: the first block after one in which all money is 7 coins of one account. -/
example (E : Env) (a b c : Addr) (hab : a ≠ b) (hac : a ≠ c) (hbc : b ≠ c) : ∃ (n : Node) (block : Block), Reach E n ∧
    let after := Push E block (tentative n)
    after.1 = .ok () ∧ ∃ d order lower d', after.2.tree.store = .overlay n.tree.store (some d) ∧ order.Perm d ∧
      Tree.Store.overlay lower (some d') ∈ Tree.flushStates order n.tree.store d ∧
      (Node.getAccount a (backOn lower after.2)).1 = .ok (.basic ⟨7⟩) ∧
      (Node.getAccount b (backOn lower after.2)).1 = .ok (.basic ⟨7⟩) := by
  have hn : Reach E (Node.putAccount E.H a (some (.basic ⟨7⟩)) newNode).2 := .put _ _ .new
  have hacc : accountOf (Node.putAccount E.H a (some (.basic ⟨7⟩)) newNode).2 = AMap.set (fun _ => .basic ⟨0⟩) a (.basic ⟨7⟩) := by
    rw [accountOf_put .new, accountOf_new]
  obtain ⟨ca, hr⟩ := rewardAt_node hn (h := 1) (by decide)
  have htot : total (accountOf (Node.putAccount E.H a (some (.basic ⟨7⟩)) newNode).2) = 7 := by
    have h1 := total_set (fun _ => Account.basic ⟨0⟩) a (.basic ⟨7⟩)
    have h2 : total (fun _ => Account.basic ⟨0⟩) = 0 := Finset.sum_eq_zero fun _ _ => rfl
    rw [h2] at h1
    rw [hacc]
    exact h1
  have hle := rewardAt_le (h := 1) (by decide)
  have hcap : Policy.Spec.cap = 2100000000000000 := rfl
  have := C143_money_violated hn a b c 7 0 1 (by decide) (by rw [hacc, AMap.set_same]) (by rw [hacc, AMap.set_ne _ _ (Ne.symm hab)])
    (by rw [hacc, AMap.set_ne _ _ (Ne.symm hac)]; rfl) hab hac hbc _ ca hr (by rw [htot]; omega) (BArr.zero 32) []
  obtain ⟨h1, d, h2, ⟨order, lower, d', h3, h4, h5, h6⟩, -⟩ := this
  exact ⟨_, _, hn, h1, d, order, lower, d', h2, h3, h4, h5, h6⟩

/-- C143. Whoever pushes a block on the accounts over the lower store, while the overlay is being written down or after it was left
half written, pushes it on the mixture: unless it panics, the outcome and the accounts afterwards are those of pushing it on
accounts which are as after the first block for the addresses written and as before it for all others. -/
theorem C143_push_again_partial (hn : Reach E n) (block : Block) :
    let r := Push E block (tentative n)
    ∃ d, r.2.tree.store = .overlay n.tree.store (some d) ∧ ∀ order, order.Perm d → ∀ i lower d',
      (Tree.flushStates order n.tree.store d)[i]? = some (.overlay lower (some d')) →
      ∀ n2, Reach E n2 → (∀ b, accountOf n2 b = if Tree.Spec.nibbles b ∈ (order.take ((i + 1) / 2)).map (·.1)
          then accountOf (Push E block n).2 b else accountOf n b) →
      ∀ block2, (Push E block2 (backOn lower r.2)).1 ≠ .panic →
        (Push E block2 (backOn lower r.2)).1 = (Push E block2 n2).1 ∧
        ∀ b, (Node.getAccount b (Push E block2 (backOn lower r.2)).2).1 = (Node.getAccount b (Push E block2 n2).2).1 := by
  intro r
  obtain ⟨-, -, q, hq, hM⟩ := tentative_spec hn block
  obtain ⟨w', d, e1, e2, -, -, -, e3, -⟩ := Tree.midFlush_spec (H := E.H) hn.acc.tree q
  rw [hq] at e1
  cases e1
  refine ⟨d, e2, fun order ho i lower d' hs n2 h2 hm block2 hp => ?_⟩
  have S0 := hn.loose.sound
  obtain ⟨S, L⟩ := Tree.midFlush_loose (H := E.H) hn.acc.tree ⟨hn.acc.tree.wf.usable, S0.short⟩ hq e2 ho hs
  obtain ⟨l1, d1, e4, e⟩ := e3 order ho i _ hs
  cases e4
  have X : Loose (backOn lower r.2) (accountOf n2) := by
    refine ⟨S, L, fun b => ⟨_, e b, ?_⟩, ((tentative_rel hn.acc).push block).2.cache⟩
    rw [hM]
    show _ = entryOf (accountOf n2 b)
    rw [hm b]
    simp only [Tree.written]
    split <;> split <;> simp_all
  obtain ⟨p1, p2, -⟩ := X.push hp
  have h3 := h2.acc.push block2
  refine ⟨p1.trans h3.1.symm, fun b => ?_⟩
  rw [p2.getAccount b, h3.2.getAccount b]

/-! ## A block that pays twice -/

/-- An address of 20 equal bytes. -/
def sameByte (i : UInt8) : Addr := ⟨List.replicate 20 i, rfl⟩

/-- Some function for Blake2b-256; it does not matter which. -/
def anyEnv : Env := ⟨fun b => ⟨UInt8.ofNat b.length :: 1 :: List.replicate 30 0, rfl⟩, fun l h => ⟨l.head h, List.head_mem h⟩, fun _ => 0⟩

/-- Three accounts with 14, 7 and 7 coins. -/
def threeAccounts : Node := (Node.putAccount anyEnv.H (sameByte 0x30) (some (.basic ⟨7⟩)) (Node.putAccount anyEnv.H (sameByte 0x20)
  (some (.basic ⟨7⟩)) (Node.putAccount anyEnv.H (sameByte 0x10) (some (.basic ⟨14⟩)) newNode).2).2).2

/-- The first account pays 7 coins to the second one; the third one is the miner. -/
def payBlock : Block :=
  ⟨1, BArr.zero 32, some ⟨sameByte 0x30, [.extended ⟨[], sameByte 0x10, 0, sameByte 0x20, 0, 7, 0, 1, 1, 0, []⟩], []⟩⟩

/-- The entries of the overlay after the block, those of one key first. -/
def payeeFirst : List (Tree.Nibbles × Option Tree.Ptr) :=
  match (Push anyEnv payBlock (tentative threeAccounts)).2.tree.store with
  | .overlay _ (some d) => d.filter (fun e => e.1 = Tree.keyNibs (sameByte 0x20)) ++ d.filter fun e => !(e.1 = Tree.keyNibs (sameByte 0x20) : Bool)
  | _ => []

/-- The lower store when the first of these entries has been written. -/
def payeeWritten : Tree.Store :=
  match (Push anyEnv payBlock (tentative threeAccounts)).2.tree.store with
  | .overlay l (some d) => match (Tree.flushStates payeeFirst l d)[1]? with
    | some s => match s with
      | .overlay l' _ => l'
      | .mem _ => l
    | none => l
  | _ => .mem []

/-- The account is a basic one with this balance. -/
def holds (o : Out Account) (v : UInt64) : Bool := match o with | .ok (.basic a) => a.value == v | _ => false

theorem holds_ok {o : Out Account} {v : UInt64} (h : holds o v = true) : o = .ok (.basic ⟨v⟩) := by
  unfold holds at h
  split at h
  · rename_i a; obtain ⟨x⟩ := a; simp at h; rw [h]
  · cases h

theorem threeAccounts_reach : Reach anyEnv threeAccounts := .put _ _ (.put _ _ (.put _ _ .new))

/-- The push is accepted. -/
def accepts (o : Out Unit) : Bool := match o with | .ok _ => true | _ => false

theorem accepts_ok {o : Out Unit} (h : accepts o = true) : o = .ok () := by
  cases o with
  | ok u => rfl
  | err e => cases h
  | panic => cases h

theorem three_a : holds (Node.getAccount (sameByte 0x10) threeAccounts).1 14 = true := by decide +kernel
theorem three_b : holds (Node.getAccount (sameByte 0x20) threeAccounts).1 7 = true := by decide +kernel
theorem pay_ok : accepts (Push anyEnv payBlock (tentative threeAccounts)).1 = true := by decide +kernel
theorem payeeFirst_some : payeeFirst.length ≠ 0 := by decide +kernel
theorem again_ok : accepts (Push anyEnv payBlock (backOn payeeWritten (Push anyEnv payBlock (tentative threeAccounts)).2)).1 = true := by
  decide +kernel
theorem again_a : holds (Node.getAccount (sameByte 0x10) (Push anyEnv payBlock (backOn payeeWritten
    (Push anyEnv payBlock (tentative threeAccounts)).2)).2).1 7 = true := by decide +kernel
theorem again_b : holds (Node.getAccount (sameByte 0x20) (Push anyEnv payBlock (backOn payeeWritten
    (Push anyEnv payBlock (tentative threeAccounts)).2)).2).1 21 = true := by decide +kernel

/-- C143, what a restart makes of it. A block that pays 7 coins from an account with 14 to one with 7 is pushed on an overlay, and
the flush is interrupted when one entry has been written. The block is pushed again, without an overlay: it is accepted, the payer
has paid once (14 to 7) and the payee has been paid twice (7 to 21). -/
theorem C143_paid_twice_violated : ∃ (E : Env) (n : Node) (a b : Addr) (block : Block), Reach E n ∧
    (Node.getAccount a n).1 = .ok (.basic ⟨14⟩) ∧ (Node.getAccount b n).1 = .ok (.basic ⟨7⟩) ∧
    (let r := Push E block (tentative n)
    r.1 = .ok () ∧ ∃ d order lower d', r.2.tree.store = .overlay n.tree.store (some d) ∧ order.Perm d ∧
      Tree.Store.overlay lower (some d') ∈ Tree.flushStates order n.tree.store d ∧
      (let again := Push E block (backOn lower r.2)
      again.1 = .ok () ∧ (Node.getAccount a again.2).1 = .ok (.basic ⟨7⟩) ∧ (Node.getAccount b again.2).1 = .ok (.basic ⟨21⟩))) := by
  have hn := threeAccounts_reach
  refine ⟨anyEnv, threeAccounts, sameByte 0x10, sameByte 0x20, payBlock, hn, holds_ok three_a, holds_ok three_b, ?_⟩
  obtain ⟨-, d, e1, h1⟩ := C143_push_partial hn payBlock
  have e1' : (Push anyEnv payBlock (tentative threeAccounts)).2.tree.store = .overlay threeAccounts.tree.store (some d) := e1
  have hperm : payeeFirst.Perm d := by
    have : payeeFirst = d.filter (fun e => e.1 = Tree.keyNibs (sameByte 0x20)) ++
        d.filter fun e => !(e.1 = Tree.keyNibs (sameByte 0x20) : Bool) := by
      unfold payeeFirst; rw [e1']
    rw [this]
    exact Tree.perm_first _ d
  have hlen : 1 < (Tree.flushStates payeeFirst threeAccounts.tree.store d).length := by
    rw [Tree.flushStates_length _ _ _ hn.acc.tree.wf.usable]
    have := payeeFirst_some
    omega
  obtain ⟨lower, d', hs, -⟩ := h1 payeeFirst hperm 1 _ (List.getElem?_eq_getElem hlen)
  have hw : payeeWritten = lower := by
    unfold payeeWritten
    rw [e1']
    simp only [List.getElem?_eq_getElem hlen, hs]
  refine ⟨accepts_ok pay_ok, d, payeeFirst, payeeWritten, d', e1', hperm, ?_, accepts_ok again_ok, holds_ok again_a, holds_ok again_b⟩
  rw [hw, ← hs]
  exact List.getElem_mem hlen

end Nimiq.Accounts
