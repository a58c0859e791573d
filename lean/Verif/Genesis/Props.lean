import Verif.Genesis.Model
import Verif.Genesis.Spec
import Verif.Accounts.ContractProps
import Verif.Accounts.NoPanic
import Verif.Accounts.Exact
import Verif.Tree.Binding
/-!
# C68, C69: genesis initialisation and replay
-/
namespace Nimiq.Genesis
open Beserial Wire Accounts Spec

variable {E : Env} {n n' : Node}

/-! ## Writing the list -/

theorem listed_cons (e : Addr × Option Account) (l : List (Addr × Option Account)) (old : AMap) :
    listed (e :: l) old = listed l (old.set e.1 (e.2.getD initialAccount)) := by
  funext a
  unfold listed
  by_cases hb : e.1 = a
  · rw [List.filter_cons_of_pos (by simpa using hb), List.getLast?_cons]
    cases (l.filter fun p => decide (p.1 = a)).getLast? with
    | none => subst hb; simp [initialAccount]
    | some q => rfl
  · rw [List.filter_cons_of_neg (by simpa using hb)]
    cases (l.filter fun p => decide (p.1 = a)).getLast? with
    | none => simp only []; rw [AMap.set_ne _ _ (Ne.symm hb)]
    | some q => rfl

theorem putAll_spec : ∀ (l : List (Addr × Option Account)) {n : Node}, Reach E n →
    (putAll E.H l n).1 = .ok () ∧ Reach E (putAll E.H l n).2 ∧
    accountOf (putAll E.H l n).2 = listed l (accountOf n) := by
  intro l
  induction l with
  | nil => intro n hn; exact ⟨rfl, hn, rfl⟩
  | cons e l ih =>
    intro n hn
    have h1 := hn.acc.putAccount e.1 e.2
    have hr : Reach E (Node.putAccount E.H e.1 e.2 n).2 := .put e.1 e.2 hn
    have e1 : putAll E.H (e :: l) n = putAll E.H l (Node.putAccount E.H e.1 e.2 n).2 := by
      show (Node.putAccount E.H e.1 e.2 >>= fun _ => putAll E.H l) n = _
      rw [M.bind_eq]
      rcases hx : Node.putAccount E.H e.1 e.2 n with ⟨o, s⟩
      rw [hx] at h1
      have : o = .ok () := h1.1
      subst this
      rfl
    obtain ⟨i1, i2, i3⟩ := ih hr
    rw [e1]
    refine ⟨i1, i2, ?_⟩
    rw [i3, h1.2.accountOf, listed_cons]

/-! ## C68 -/

theorem initAccounts_eq (hn : Reach E n) (l : List (Addr × Option Account)) (block : Block) :
    initAccounts E l block n =
      match Push E block (putAll E.H l n).2 with
      | (.ok (), n1) => if (Node.hash E.H n1).1 = .ok block.accountsHash then (.ok (), n1) else (.err .hashMismatch, n1)
      | (.err e, n1) => (.err e, n1)
      | (.panic, n1) => (.panic, n1) := by
  obtain ⟨h1, h2, h3⟩ := putAll_spec (E := E) l hn
  unfold initAccounts
  rw [M.bind_eq]
  rcases hx : putAll E.H l n with ⟨o, n0⟩
  rw [hx] at h1 h2
  simp only [] at h1 h2
  subst h1
  simp only []
  rw [M.bind_eq]
  have hr : Reach E (Push E block n0).2 := .push block h2
  rcases hp : Push E block n0 with ⟨o, n1⟩
  rw [hp] at hr
  cases o with
  | err e => rfl
  | panic => rfl
  | ok u =>
    simp only []
    rw [M.bind_eq, hr.acc.hash]
    simp only []
    by_cases hh : Tree.Spec.rootHash E.H (fun a => entryOf (accountOf n1 a)) = block.accountsHash
    · rw [if_neg (by simp [hh]), hh, if_pos rfl]; rfl
    · rw [if_pos hh, if_neg (by simpa using hh)]; rfl

/-- C68. `InitAccounts` succeeds iff, once the listed accounts have been written, the block pushes without error and the
tree hash is then the one of the block's header; the state it leaves is the state after that push. -/
theorem C68_iff (hn : Reach E n) (l : List (Addr × Option Account)) (block : Block) :
    ∃ n0, Reach E n0 ∧ accountOf n0 = listed l (accountOf n) ∧
      ∀ n', initAccounts E l block n = (.ok (), n') ↔
        Push E block n0 = (.ok (), n') ∧ (Node.hash E.H n').1 = .ok block.accountsHash := by
  obtain ⟨h1, h2, h3⟩ := putAll_spec (E := E) l hn
  refine ⟨_, h2, h3, fun n' => ?_⟩
  rw [initAccounts_eq hn]
  rcases hp : Push E block (putAll E.H l n).2 with ⟨o, n1⟩
  cases o with
  | err e => simp
  | panic => simp
  | ok u =>
    simp only []
    by_cases hh : (Node.hash E.H n1).1 = .ok block.accountsHash
    · rw [if_pos hh]
      constructor
      · intro h; cases h; exact ⟨rfl, hh⟩
      · rintro ⟨h, _⟩; cases h; rfl
    · rw [if_neg hh]
      constructor
      · intro h; cases h
      · rintro ⟨h, h'⟩; cases h; exact absurd h' hh

/-- C68. It panics only if the push panics. -/
theorem C68_panic (hn : Reach E n) (l : List (Addr × Option Account)) (block : Block) :
    ∃ n0, Reach E n0 ∧ accountOf n0 = listed l (accountOf n) ∧
      ((initAccounts E l block n).1 = .panic ↔ (Push E block n0).1 = .panic) := by
  obtain ⟨h1, h2, h3⟩ := putAll_spec (E := E) l hn
  refine ⟨_, h2, h3, ?_⟩
  rw [initAccounts_eq hn]
  rcases hp : Push E block (putAll E.H l n).2 with ⟨o, n1⟩
  cases o with
  | err e => simp
  | panic => simp
  | ok u =>
    simp only []
    by_cases hh : (Node.hash E.H n1).1 = .ok block.accountsHash
    · rw [if_pos hh]
    · rw [if_neg hh]; simp

/-- C68, for blocks like the embedded ones (no transactions, nothing pruned): on a fresh node `InitAccounts` succeeds iff
the miner's listed account is basic and the header has the Merkle-Patricia root of the listed accounts with the block
reward added to the miner. Those are then the accounts. -/
theorem C68_plain (E : Env) (l : List (Addr × Option Account)) (height : UInt32) (h0 : height ≠ 0) (hash : Hash32)
    (miner : Addr) (r : UInt64) (c : List UInt64) (hr : Policy.blockReward Policy.initCache height = .ok (r, c)) :
    let m := listed l (fun _ => .basic ⟨0⟩)
    let after : Addr → Account := fun a => if a = miner then .basic ⟨balance (m miner) + r⟩ else m a
    let res := initAccounts E l ⟨height, hash, some ⟨miner, [], []⟩⟩ newNode
    (res.1 = .ok () ↔ (m miner).type = 0 ∧
      hash = Tree.Spec.rootHash E.H fun a => if after a = .basic ⟨0⟩ then [] else accountLayout (after a)) ∧
    (res.1 = .ok () → accountOf res.2 = after) := by
  intro m after res
  obtain ⟨n0, h1, h2, h3⟩ := C68_iff (E := E) .new l ⟨height, hash, some ⟨miner, [], []⟩⟩
  rw [accountOf_new] at h2
  have hrr : rewardAt height = r := by unfold rewardAt; rw [hr]
  have e1 : afterRecipients [] (afterSenders E.H [] m) = m := by
    funext a; simp [afterRecipients, afterSenders, sentBy, receivedBy]
  have haft : (m miner).type = 0 → afterInherents height ⟨miner, [], []⟩ m = after := by
    intro q5
    funext a
    unfold afterInherents
    by_cases ha : a = miner
    · subst ha
      rw [AMap.set_same, hrr]
      show _ = if a = a then _ else _
      rw [if_pos rfl]
      cases hm : m a with
      | basic b => simp [withBalance, balance]
      | vesting b => rw [hm] at q5; cases q5
      | htlc b => rw [hm] at q5; cases q5
    · rw [AMap.set_ne _ _ ha]
      show _ = if a = miner then _ else _
      rw [if_neg ha]
  have hpush : ∀ m', push E mapLedger ⟨height, hash, some ⟨miner, [], []⟩⟩ m = (.ok (), m') ↔
      (m miner).type = 0 ∧ m' = after := by
    intro m'
    rw [plain_push_iff (E := E) (body := ⟨miner, [], []⟩) rfl (by simp) (by simp)]
    constructor
    · rintro ⟨q0, q1, q2, q3, q4, q5, q6⟩
      exact ⟨q5, by rw [q6, ← haft q5]; show afterInherents _ _ (afterRecipients [] (afterSenders E.H [] m)) = _; rw [e1]⟩
    · rintro ⟨q5, q6⟩
      refine ⟨h0, by simp, by simp [sentBy], by simp, rfl, q5, ?_⟩
      rw [q6, ← haft q5]; show _ = afterInherents _ _ (afterRecipients [] (afterSenders E.H [] m)); rw [e1]
  have hfin : ∀ n', Push E ⟨height, hash, some ⟨miner, [], []⟩⟩ n0 = (.ok (), n') → accountOf n' = after ∧ (m miner).type = 0 := by
    intro n' hp
    have hm := push_map h1 hp
    rw [h2] at hm
    exact ⟨((hpush _).mp hm).2, ((hpush _).mp hm).1⟩
  constructor
  · constructor
    · intro h
      obtain ⟨h4, h5⟩ := (h3 res.2).mp (Prod.ext h rfl)
      obtain ⟨f1, f2⟩ := hfin _ h4
      refine ⟨f2, ?_⟩
      have hrch : Reach E res.2 := by have := Reach.push ⟨height, hash, some ⟨miner, [], []⟩⟩ h1; rwa [h4] at this
      rw [hrch.acc.hash, f1] at h5
      exact (Out.ok.inj h5).symm
    · rintro ⟨g1, g2⟩
      have hp := h1.acc.push ⟨height, hash, some ⟨miner, [], []⟩⟩
      rw [h2, (hpush after).mpr ⟨g1, rfl⟩] at hp
      have := (h3 (Push E ⟨height, hash, some ⟨miner, [], []⟩⟩ n0).2).mpr ⟨Prod.ext hp.1 rfl, by
        rw [hp.2.hash]; exact congrArg Out.ok g2.symm⟩
      show (initAccounts E l _ newNode).1 = _
      rw [this]
  · intro h
    exact (hfin _ ((h3 res.2).mp (Prod.ext h rfl)).1).1

example (E : Env) (l : List (Addr × Option Account)) (hash : Hash32) (miner : Addr) :=
  C68_plain E l 1 (by decide) hash miner (Policy.blockReward Policy.initCache 1 |> fun | .ok x => x.1 | _ => 0) _ rfl

end Nimiq.Genesis
