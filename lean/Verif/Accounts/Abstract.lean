import Verif.Accounts.Model
import Verif.Tree.Ops
import Verif.Wire.Codecs
import Verif.Policy.Props
/-!
# The accounts as a plain map, and the simulation

The code of accounts.go runs the same on the tree and on a map from addresses to accounts.
-/
namespace Nimiq.Accounts
open Beserial Wire

/-- Every address has an account; `initialAccount` stands for "no entry". -/
abbrev AMap := Addr → Account

def AMap.set (m : AMap) (a : Addr) (acc : Account) : AMap := fun b => if b = a then acc else m b

@[simp] theorem AMap.set_same (m : AMap) (a : Addr) (acc : Account) : m.set a acc a = acc := by simp [AMap.set]
theorem AMap.set_ne (m : AMap) {a b : Addr} (acc : Account) (h : b ≠ a) : m.set a acc b = m b := by simp [AMap.set, h]
theorem AMap.set_id (m : AMap) (a : Addr) : m.set a (m a) = m := by
  funext b; by_cases h : b = a
  · subst h; simp
  · rw [AMap.set_ne _ _ h]

/-- The reward of a block, as a fresh process computes it. -/
def rewardAt (h : UInt32) : UInt64 :=
  match Policy.blockReward Policy.initCache h with
  | .ok (r, _) => r
  | _ => 0

/-- The ledger on maps. -/
def mapLedger : Ledger AMap where
  getAccount a := fun m => (.ok (m a), m)
  putAccount a acc := fun m => (.ok (), m.set a (acc.getD initialAccount))
  blockReward h := fun m => if h = 0 then (.panic, m) else (.ok (rewardAt h), m)

/-! ## Simulation -/

variable {σ τ : Type}

/-- Two calls do the same on related states. -/
def Sim (R : σ → τ → Prop) {α : Type} (x : M σ α) (y : M τ α) : Prop :=
  ∀ s t, R s t → (x s).1 = (y t).1 ∧ R (x s).2 (y t).2

structure SimLedger (R : σ → τ → Prop) (L : Ledger σ) (K : Ledger τ) : Prop where
  get : ∀ a, Sim R (L.getAccount a) (K.getAccount a)
  put : ∀ a acc, Sim R (L.putAccount a acc) (K.putAccount a acc)
  reward : ∀ h, Sim R (L.blockReward h) (K.blockReward h)

section
variable {R : σ → τ → Prop} {α β : Type}

theorem Sim.pure (a : α) : Sim R (Pure.pure a : M σ α) (Pure.pure a : M τ α) := fun _ _ h => ⟨rfl, h⟩
theorem Sim.lift (a : Out α) : Sim R (M.lift a : M σ α) (M.lift a : M τ α) := fun _ _ h => ⟨rfl, h⟩
theorem Sim.throw (e : Err) : Sim R (M.throw e : M σ α) (M.throw e : M τ α) := fun _ _ h => ⟨rfl, h⟩
theorem Sim.panic : Sim R (M.panic : M σ α) (M.panic : M τ α) := fun _ _ h => ⟨rfl, h⟩

theorem Sim.bind {x : M σ α} {y : M τ α} {f : α → M σ β} {g : α → M τ β} (h : Sim R x y)
    (hf : ∀ a, Sim R (f a) (g a)) : Sim R (x >>= f) (y >>= g) := by
  intro s t hr
  obtain ⟨h1, h2⟩ := h s t hr
  show (M.bind x f s).1 = (M.bind y g t).1 ∧ R (M.bind x f s).2 (M.bind y g t).2
  unfold M.bind
  rcases hx : x s with ⟨ox, s'⟩
  rcases hy : y t with ⟨oy, t'⟩
  rw [hx, hy] at h1 h2
  simp only at h1 h2
  subst h1
  cases ox with
  | ok a => exact hf a s' t' h2
  | err e => exact ⟨rfl, h2⟩
  | panic => exact ⟨rfl, h2⟩

theorem Sim.ite {c : Prop} [Decidable c] {x x' : M σ α} {y y' : M τ α} (h : Sim R x y) (h' : Sim R x' y') :
    Sim R (if c then x else x') (if c then y else y') := by
  by_cases hc : c
  · simpa only [if_pos hc] using h
  · simpa only [if_neg hc] using h'

theorem Sim.forTxs {f : Tx → M σ Unit} {g : Tx → M τ Unit} (h : ∀ tx, Sim R (f tx) (g tx)) :
    ∀ txs, Sim R (forTxs txs f) (forTxs txs g) := by
  intro txs
  induction txs with
  | nil => exact Sim.pure ()
  | cons tx txs ih => exact Sim.bind (h tx) fun _ => ih

variable {L : Ledger σ} {K : Ledger τ} (E : Env) (S : SimLedger R L K)
include S

theorem sim_pushTx (a : Addr) (ty : UInt8) (tx : Tx) (h : UInt32) (op : AccountOp) :
    Sim R (pushTx L a ty tx h op) (pushTx K a ty tx h op) :=
  Sim.bind (S.get a) fun _ => Sim.ite (Sim.throw _) (Sim.bind (Sim.lift _) fun _ => S.put a _)

theorem sim_createContract (tx : Tx) (h : UInt32) : Sim R (createContract E L tx h) (createContract E K tx h) := by
  unfold createContract
  refine Sim.ite Sim.panic (Sim.bind (S.get _) fun acc => Sim.ite (Sim.throw _) (Sim.ite ?_ (Sim.ite ?_ (Sim.throw _))))
  · exact Sim.bind (Sim.lift _) fun _ => S.put _ _
  · exact Sim.bind (Sim.lift _) fun _ => S.put _ _

theorem sim_pruneLoop : ∀ (txs : List Tx) (pm : PruneMap), Sim R (pruneLoop E L txs pm) (pruneLoop E K txs pm) := by
  intro txs
  induction txs with
  | nil => intro pm; exact Sim.pure pm
  | cons tx txs ih =>
    intro pm
    unfold pruneLoop
    refine Sim.bind (S.get _) fun acc => Sim.ite (ih _) ?_
    cases pm.get (tx.getSender E.H).1 with
    | none => exact Sim.throw _
    | some x => exact Sim.ite (Sim.throw _) (Sim.bind (S.put _ _) fun _ => ih _)

theorem sim_push (block : Block) : Sim R (push E L block) (push E K block) := by
  unfold push
  cases block.body with
  | none => exact Sim.panic
  | some body =>
    refine Sim.bind (Sim.forTxs (fun tx => sim_pushTx S _ _ _ _ _) _) fun _ => ?_
    refine Sim.bind (Sim.forTxs (fun tx => sim_pushTx S _ _ _ _ _) _) fun _ => ?_
    refine Sim.bind (Sim.forTxs (fun tx => Sim.ite (sim_createContract E S _ _) (Sim.pure ())) _) fun _ => ?_
    refine Sim.bind ?_ fun _ => ?_
    · unfold pruneAccounts
      refine Sim.bind (sim_pruneLoop E S _ _) fun pm => ?_
      by_cases h : pm.map (·.1) ≠ []
      · simp only [dif_pos h]; exact Sim.throw _
      · simp only [dif_neg h]; exact Sim.pure ()
    · exact Sim.bind (S.reward _) fun r => sim_pushTx S _ _ _ _ _

end

/-! ## The tree simulates the map -/

/-- What the tree stores for an account. -/
def entryOf (acc : Account) : Bytes := if acc = initialAccount then [] else accountLayout acc

theorem accountLayout_ne_nil (acc : Account) : accountLayout acc ≠ [] := by cases acc <;> simp [accountLayout]

theorem entryOf_eq_nil {acc : Account} : entryOf acc = [] ↔ acc = initialAccount := by
  unfold entryOf
  by_cases h : acc = initialAccount
  · simp [h]
  · simp [h, accountLayout_ne_nil]

/-- The node holds the accounts `m`. -/
structure Rel (H : Bytes → Hash32) (n : Node) (m : AMap) : Prop where
  tree : Tree.TreeInv H n.tree (fun a => entryOf (m a))
  cache : Policy.Reachable n.cache

variable {H : Bytes → Hash32} {n : Node} {m : AMap}

theorem Rel.getAccount (h : Rel H n m) (a : Addr) : Node.getAccount a n = (.ok (m a), n) := by
  unfold Node.getAccount
  rw [Tree.getEntry_spec h.tree a]
  by_cases hm : m a = initialAccount
  · simp [entryOf, hm]
  · have he : entryOf (m a) = accountLayout (m a) := by simp [entryOf, hm]
    have hne := accountLayout_ne_nil (m a)
    have hlen : ¬ (accountLayout (m a)).length ≤ 0 := by
      have := List.length_pos_iff.mpr hne; omega
    have hdec := (C40_round_trip (m a) [] []).2
    rw [List.append_nil] at hdec
    simp only [he, hne, if_false, Option.getD_some, hlen, hdec, ne_eq, not_true_eq_false]

theorem Rel.putEntry (h : Rel H n m) (a : Addr) (acc : Account) :
    (Node.putEntry H a (entryOf acc) n).1 = .ok () ∧ Rel H (Node.putEntry H a (entryOf acc) n).2 (m.set a acc) := by
  obtain ⟨b, w', h1, h2, _⟩ := Tree.putEntry_spec h.tree a (entryOf acc)
  unfold Node.putEntry
  rw [h1]
  refine ⟨rfl, ⟨?_, h.cache⟩⟩
  have : (fun b => entryOf (m.set a acc b)) = Tree.Spec.set (fun a => entryOf (m a)) a (entryOf acc) := by
    funext b
    by_cases hb : b = a
    · subst hb; simp [Tree.Spec.set]
    · simp [Tree.Spec.set, hb, AMap.set_ne]
  rw [this]
  exact h2

theorem initial_iff (acc : Account) : (acc.type = 0 ∧ isEmpty acc = true) ↔ acc = initialAccount := by
  cases acc with
  | basic a => rcases a with ⟨v⟩; simp [Account.type, isEmpty, initialAccount]
  | vesting a => simp [Account.type, initialAccount]
  | htlc a => simp [Account.type, initialAccount]

theorem Rel.putAccount (h : Rel H n m) (a : Addr) (acc : Option Account) :
    (Node.putAccount H a acc n).1 = .ok () ∧
    Rel H (Node.putAccount H a acc n).2 (m.set a (acc.getD initialAccount)) := by
  have h0 := h.putEntry a initialAccount
  have e0 : entryOf initialAccount = [] := by simp [entryOf]
  rw [e0] at h0
  cases acc with
  | none => exact h0
  | some x =>
    have key : Node.putAccount H a (some x) = Node.putEntry H a (entryOf x) := by
      unfold entryOf
      by_cases hx : x = initialAccount
      · subst hx
        have := (initial_iff initialAccount).mpr rfl
        simp only [Node.putAccount, this, if_true, and_self]
      · have hc : ¬ (x.type = 0 ∧ isEmpty x = true) := fun hc => hx ((initial_iff x).mp hc)
        have henc := (C40_round_trip x [] []).1
        rw [List.nil_append] at henc
        simp only [Node.putAccount, hc, hx, if_false, henc]
    rw [key]
    exact h.putEntry a x

theorem rewardAt_eq {c : List UInt64} (hc : Policy.Reachable c) {h : UInt32} (h0 : h ≠ 0) :
    ∃ c', Policy.blockReward c h = .ok (rewardAt h, c') ∧ Policy.Reachable c' := by
  obtain ⟨r, s, s', c1, c2, c3, e1, e2, e3, e4, e5⟩ := (Policy.C26_reward_is_increment hc Policy.Reachable.init
    Policy.Reachable.init h).2 h0
  obtain ⟨r', t, t', d1, d2, d3, f1, f2, f3, f4, f5⟩ := (Policy.C26_reward_is_increment Policy.Reachable.init
    Policy.Reachable.init Policy.Reachable.init h).2 h0
  have hr : rewardAt h = r' := by unfold rewardAt; rw [f1]
  rw [e2] at f2; rw [e3] at f3
  cases f2; cases f3
  refine ⟨c1, ?_, .blockReward hc e1⟩
  rw [e1, hr, e5, f5]

theorem simLedger (H : Bytes → Hash32) : SimLedger (Rel H) (nodeLedger H) mapLedger where
  get a := by
    intro n m h
    show (Node.getAccount a n).1 = _ ∧ Rel H (Node.getAccount a n).2 _
    rw [h.getAccount a]
    exact ⟨rfl, h⟩
  put a acc := fun n m h => h.putAccount a acc
  reward k := by
    intro n m h
    show (Node.blockReward k n).1 = (mapLedger.blockReward k m).1 ∧ Rel H (Node.blockReward k n).2 (mapLedger.blockReward k m).2
    unfold Node.blockReward mapLedger
    by_cases hk : k = 0
    · rw [((Policy.C26_reward_is_increment h.cache h.cache h.cache k).1.mpr hk)]
      simp [hk, h]
    · obtain ⟨c', e1, e2⟩ := rewardAt_eq h.cache hk
      rw [e1]
      simp only [hk, if_false]
      exact ⟨trivial, ⟨h.tree, e2⟩⟩

/-- Push on a node does what the same code does on the map of its accounts. -/
theorem Rel.push {E : Env} (h : Rel E.H n m) (block : Block) :
    (Push E block n).1 = (Accounts.push E mapLedger block m).1 ∧
    Rel E.H (Push E block n).2 (Accounts.push E mapLedger block m).2 :=
  sim_push E (simLedger E.H) block n m h

theorem rel_new (H : Bytes → Hash32) : Rel H newNode (fun _ => initialAccount) := by
  refine ⟨?_, .init⟩
  have : (fun _ : Addr => entryOf initialAccount) = fun _ => [] := by funext a; simp [entryOf]
  rw [this]
  exact Tree.newWorld_inv

theorem Rel.hash (h : Rel H n m) : Node.hash H n = (.ok (Tree.Spec.rootHash H (fun a => entryOf (m a))), n) := by
  unfold Node.hash
  rw [Tree.hash_spec h.tree]

/-! ## Reachable nodes -/

/-- The states an `Accounts` value can have: it is created on an empty tree, accounts are put, blocks are pushed (with any
outcome), and other parts of the process use the emission schedule. -/
inductive Reach (E : Env) : Node → Prop
  | new : Reach E newNode
  | put {n : Node} (a : Addr) (acc : Option Account) : Reach E n → Reach E (Node.putAccount E.H a acc n).2
  | push {n : Node} (block : Block) : Reach E n → Reach E (Push E block n).2
  | policy {n : Node} {c : List UInt64} : Reach E n → Policy.Reachable c → Reach E ⟨n.tree, c⟩

theorem Reach.rel {E : Env} {n : Node} (h : Reach E n) : ∃ m, Rel E.H n m := by
  induction h with
  | new => exact ⟨_, rel_new E.H⟩
  | put a acc _ ih => obtain ⟨m, hm⟩ := ih; exact ⟨_, (hm.putAccount a acc).2⟩
  | push b _ ih => obtain ⟨m, hm⟩ := ih; exact ⟨_, (hm.push b).2⟩
  | policy _ hc ih => obtain ⟨m, hm⟩ := ih; exact ⟨m, hm.tree, hc⟩

/-- The answer of `GetAccount` (it always answers on a reachable node, C54). -/
def accountOf (n : Node) (a : Addr) : Account :=
  match (Node.getAccount a n).1 with
  | .ok acc => acc
  | _ => initialAccount

theorem Rel.accountOf (h : Rel H n m) : accountOf n = m := by
  funext a; unfold Accounts.accountOf; rw [h.getAccount a]

theorem Reach.acc {E : Env} {n : Node} (h : Reach E n) : Rel E.H n (accountOf n) := by
  obtain ⟨m, hm⟩ := h.rel
  rw [hm.accountOf]; exact hm

/-- The accounts after a push, as the same code computes them on a map. -/
theorem Reach.push_eq {E : Env} {n : Node} (h : Reach E n) (block : Block) :
    (Push E block n).1 = (Accounts.push E mapLedger block (accountOf n)).1 ∧
    accountOf (Push E block n).2 = (Accounts.push E mapLedger block (accountOf n)).2 := by
  have := h.acc.push block
  exact ⟨this.1, this.2.accountOf⟩

end Nimiq.Accounts
