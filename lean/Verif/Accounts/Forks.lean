import Verif.Accounts.Tentative
import Verif.Tree.Forks
import Verif.Accounts.Exact
/-!
# C141, accounts: candidate blocks pushed on several overlays over the store of the accounts

Several accounts values in one process, each on a new overlay over the same store. They share the objects of the store, and the
reward cache of package policy, which is global.
-/
namespace Nimiq.Accounts
open Wire Beserial Beserial.Spec Tree.Generic

variable {E : Env} {n n' : Node} {m : AMap}

/-! ## Accounts on a tree that may be of any shape -/

/-- Accounts that show `m`; of the branches of the tree nothing is known. -/
structure Loose (n : Node) (m : AMap) : Prop where
  sound : Tree.Sound n.tree
  leafy : Tree.Leafy n.tree
  shows : Tree.Shows n.tree fun a => entryOf (m a)
  cache : Policy.Reachable n.cache

theorem Loose.getAccount (h : Loose n m) (a : Addr) : Node.getAccount a n = (.ok (m a), n) := by
  obtain ⟨x, h1, h2⟩ := h.shows a
  have h3 : getEntryAcross a n.tree n.tree = some x := by rw [← C106_get_entry, h1]; rfl
  have h4 := decode_entryOf h3 h2
  have h5 : (Node.getAccount a n).1 = .ok (m a) := by rw [C128_get_account]; exact h4
  have h6 : (Node.getAccount a n).2 = n := by
    unfold Node.getAccount
    rw [h1]
    simp only []
    split
    · rfl
    · split
      · split <;> rfl
      · rfl
      · rfl
      · rfl
  exact Prod.ext h5 h6

theorem Loose.putAccount {H : Bytes → Hash32} (h : Loose n m) (a : Addr) (x : Option Account) {o : Out Unit}
    (hp : Node.putAccount H a x n = (o, n')) :
    o = .panic ∨ o = .ok () ∧ Loose n' (m.set a (x.getD initialAccount)) ∧ Tree.Older n.tree n'.tree := by
  rw [putAccount_putEntry, putBytes_eq] at hp
  unfold Node.putEntry at hp
  cases he : Tree.putEntry H a (entryOf (x.getD initialAccount)) n.tree with
  | none => rw [he] at hp; cases hp; exact .inl rfl
  | some r =>
    rw [he] at hp; cases hp
    obtain ⟨-, h2, h3, h4, h5⟩ := Tree.any_put h.sound h.leafy h.shows he
    refine .inr ⟨rfl, ⟨h2, h3, ?_, h.cache⟩, h5⟩
    have e : (fun b => entryOf (m.set a (x.getD initialAccount) b)) =
        Tree.Spec.set (fun b => entryOf (m b)) a (entryOf (x.getD initialAccount)) := by
      funext b
      by_cases hb : b = a
      · subst hb; simp [Tree.Spec.set]
      · simp [Tree.Spec.set, hb, AMap.set_ne]
    show Tree.Shows r.2 _
    rw [e]; exact h4

theorem Loose.blockReward (h : Loose n m) (g : UInt32) :
    (Node.blockReward g n).1 = (mapLedger.blockReward g m).1 ∧ Loose (Node.blockReward g n).2 m ∧
      (Node.blockReward g n).2.tree = n.tree := by
  unfold Node.blockReward mapLedger
  by_cases hk : g = 0
  · rw [((Policy.C26_reward_is_increment h.cache h.cache h.cache g).1.mpr hk)]
    simp [hk, h]
  · obtain ⟨c', e1, e2⟩ := rewardAt_eq h.cache hk
    rw [e1]
    simp only [hk, if_false]
    exact ⟨trivial, ⟨h.sound, h.leafy, h.shows, e2⟩, trivial⟩

theorem older_refl (w : Tree.World) : Tree.Older w w := ⟨Nat.le_refl _, fun _ _ _ _ h => h⟩

/-- A program that does not panic does what it does on a map. -/
theorem prog_loose {H : Bytes → Hash32} {α : Type} (p : Prog α) : ∀ (n : Node) (m : AMap), Loose n m →
    (p.run (nodeLedger H) n).1 ≠ .panic →
    (p.run (nodeLedger H) n).1 = (p.run mapLedger m).1 ∧ Loose (p.run (nodeLedger H) n).2 (p.run mapLedger m).2 ∧
      Tree.Older n.tree (p.run (nodeLedger H) n).2.tree := by
  induction p with
  | done o => intro n m h _; exact ⟨rfl, h, older_refl _⟩
  | get a kk ih =>
    intro n m h hp
    have e1 : (nodeLedger H).getAccount a n = (.ok (m a), n) := h.getAccount a
    have e2 : mapLedger.getAccount a m = (.ok (m a), m) := rfl
    simp only [Prog.run, M.bind_eq, e1, e2] at hp ⊢
    exact ih _ n m h hp
  | put a x kk ih =>
    intro n m h hp
    rcases hq : Node.putAccount H a x n with ⟨o, n1⟩
    have e1 : (nodeLedger H).putAccount a x n = (o, n1) := hq
    have e2 : mapLedger.putAccount a x m = (.ok (), m.set a (x.getD initialAccount)) := rfl
    simp only [Prog.run, M.bind_eq, e1, e2] at hp ⊢
    rcases h.putAccount a x hq with rfl | ⟨rfl, h1, h2⟩
    · exact absurd rfl hp
    · obtain ⟨h3, h4, h5⟩ := ih n1 _ h1 hp
      exact ⟨h3, h4, h2.trans h5⟩
  | reward g kk ih =>
    intro n m h hp
    obtain ⟨h1, h2, h3⟩ := h.blockReward g
    rcases hq : Node.blockReward g n with ⟨o, n1⟩
    rcases hr : mapLedger.blockReward g m with ⟨o', m1⟩
    have hm : m1 = m := by
      have : (mapLedger.blockReward g m).2 = m := by unfold mapLedger; simp only []; split <;> rfl
      rw [hr] at this; exact this
    subst hm
    rw [hq] at h1 h2 h3
    rw [hr] at h1
    simp only at h1 h2 h3
    subst h1
    have e1 : (nodeLedger H).blockReward g n = (o, n1) := hq
    simp only [Prog.run, M.bind_eq, e1, hr] at hp ⊢
    cases o with
    | ok r =>
      obtain ⟨h4, h5, h6⟩ := ih r n1 _ h2 hp
      exact ⟨h4, h5, by rw [← h3]; exact h6⟩
    | err e => exact ⟨rfl, h2, by rw [h3]; exact older_refl _⟩
    | panic => exact absurd rfl hp

theorem Loose.push (h : Loose n m) {block : Block} (hp : (Push E block n).1 ≠ .panic) :
    (Push E block n).1 = (Accounts.push E mapLedger block m).1 ∧ Loose (Push E block n).2 (Accounts.push E mapLedger block m).2 ∧
      Tree.Older n.tree (Push E block n).2.tree := by
  obtain ⟨p, hp'⟩ := HasProg.push E block
  have e : ∀ σ (L : Ledger σ), Accounts.push E L block = p.run L := hp'
  unfold Push at hp ⊢
  rw [e] at hp ⊢
  rw [e]
  exact prog_loose p n m h hp

theorem Reach.loose (hn : Reach E n) : Loose (tentative n) (accountOf n) := by
  have h := tentative_rel hn.acc
  obtain ⟨M, hM⟩ : ∃ M, Tree.Reach E.H n.tree M := by
    clear h
    induction hn with
    | new => exact ⟨_, .fresh⟩
    | @put n a x hr ih =>
      obtain ⟨M, ih⟩ := ih
      rw [putAccount_putEntry]
      unfold Node.putEntry
      cases he : Tree.putEntry E.H a (putBytes x) n.tree with
      | none => exact ⟨M, ih⟩
      | some r => exact ⟨_, .put ih he⟩
    | @push n block hr ih =>
      obtain ⟨M, ih⟩ := ih
      obtain ⟨q, hq⟩ := push_puts hr.acc block
      have : ∀ (q : List (Addr × Bytes)) (w w' : Tree.World) M, Tree.Reach E.H w M → Tree.runPuts E.H q w = some w' →
          ∃ M', Tree.Reach E.H w' M' := by
        intro q
        induction q with
        | nil => intro w w' M h h'; simp only [Tree.runPuts, Option.some.injEq] at h'; subst h'; exact ⟨M, h⟩
        | cons e q ih =>
          intro w w' M h h'
          obtain ⟨a, v⟩ := e
          simp only [Tree.runPuts] at h'
          cases he : Tree.putEntry E.H a v w with
          | none => rw [he] at h'; cases h'
          | some r => rw [he] at h'; exact ih _ _ _ (.put h he) h'
      exact this q _ _ M ih hq
    | policy _ _ ih => exact ih
  have hM' : Tree.Reach E.H (tentative n).tree M := hM.push
  exact ⟨⟨h.tree.wf.usable, Tree.reach_short hM'⟩, Tree.inv_leafy h.tree, Tree.inv_shows h.tree, h.cache⟩

/-! ## Candidates -/

/-- Several accounts values in one process: shared objects, a shared reward cache, a store for each. -/
structure Candidates where
  heap : Tree.Ptr → Tree.NodeObj
  next : Tree.Ptr
  cache : List UInt64
  store : Nat → Tree.Store

/-- The accounts value number `i`. -/
def Candidates.acc (f : Candidates) (i : Nat) : Node := ⟨⟨f.heap, f.next, f.store i⟩, f.cache⟩

/-- accounts.go:31-37 `NewAccounts` on trees over new overlays (store_overlay.go:10-29, with their maps made), all over the
store of `n`. -/
def candidates (n : Node) : Candidates :=
  ⟨n.tree.heap, n.tree.next, n.cache, fun _ => .overlay n.tree.store (some [])⟩

/-- accounts.go:39-60 `Push` on the accounts value `i` -/
def Candidates.push (E : Env) (i : Nat) (block : Block) (f : Candidates) : Out Unit × Candidates :=
  let r := Push E block (f.acc i)
  (r.1, ⟨r.2.tree.heap, r.2.tree.next, r.2.cache, fun j => if j = i then r.2.tree.store else f.store j⟩)

/-- accounts.go:39-60: pushes on the accounts values, one after the other, and their outcomes; `none` when one panics -/
def Candidates.run (E : Env) : List (Nat × Block) → Candidates → Option (List (Out Unit) × Candidates)
  | [], f => some ([], f)
  | (i, block) :: calls, f =>
    match f.push E i block with
    | (.panic, _) => none
    | (o, f) => (f.run E calls).map fun r => (o :: r.1, r.2)

/-- The blocks pushed on candidate `i`. -/
def blocksOf (i : Nat) (calls : List (Nat × Block)) : List Block := (calls.filter (·.1 = i)).map (·.2)

/-- `n` with the blocks pushed on it, one after the other, each with any outcome, in a process where nothing else happens. -/
def alone (E : Env) (n : Node) (blocks : List Block) : Node := blocks.foldl (fun n b => (Push E b n).2) n

/-- What the pushes return if every candidate is alone: `N` says where the candidates are. -/
def verdicts (E : Env) : List (Nat × Block) → (Nat → Node) → List (Out Unit)
  | [], _ => []
  | (i, block) :: calls, N =>
    (Push E block (N i)).1 :: verdicts E calls fun j => if j = i then (Push E block (N i)).2 else N j

theorem candidates_run : ∀ (calls : List (Nat × Block)) {f f' : Candidates} {N : Nat → Node} {outs},
    (∀ i, Reach E (N i)) → (∀ i, Loose (f.acc i) (accountOf (N i))) → f.run E calls = some (outs, f') →
    outs = verdicts E calls N ∧ ∀ i, Loose (f'.acc i) (accountOf (alone E (N i) (blocksOf i calls)))
  | [], f, f', N, outs, hN, h, hr => by
    simp only [Candidates.run, Option.some.injEq, Prod.mk.injEq] at hr
    obtain ⟨rfl, rfl⟩ := hr
    exact ⟨rfl, h⟩
  | (i, block) :: calls, f, f', N, outs, hN, h, hr => by
    have hnp : (Push E block (f.acc i)).1 ≠ .panic := by
      intro e
      simp only [Candidates.run, Candidates.push, e] at hr
      cases hr
    obtain ⟨h1, h2, h3⟩ := (h i).push hnp
    have h4 := (hN i).acc.push block
    let f1 : Candidates := ⟨(Push E block (f.acc i)).2.tree.heap, (Push E block (f.acc i)).2.tree.next,
      (Push E block (f.acc i)).2.cache, fun j => if j = i then (Push E block (f.acc i)).2.tree.store else f.store j⟩
    let N1 : Nat → Node := fun j => if j = i then (Push E block (N i)).2 else N j
    have hN1 : ∀ j, Reach E (N1 j) := fun j => by
      show Reach E (if j = i then _ else _)
      split
      · exact .push block (hN i)
      · exact hN j
    have hf1 : ∀ j, Loose (f1.acc j) (accountOf (N1 j)) := fun j => by
      by_cases hj : j = i
      · subst hj
        have e1 : f1.acc j = (Push E block (f.acc j)).2 := by simp [f1, Candidates.acc]
        have e2 : N1 j = (Push E block (N j)).2 := by simp [N1]
        rw [e1, e2, h4.2.accountOf]
        exact h2
      · have e1 : f1.acc j = ⟨⟨(Push E block (f.acc i)).2.tree.heap, (Push E block (f.acc i)).2.tree.next, f.store j⟩,
            (Push E block (f.acc i)).2.cache⟩ := by simp [f1, Candidates.acc, hj]
        have e2 : N1 j = N j := by simp [N1, hj]
        rw [e1, e2]
        have o : Tree.Older (f.acc j).tree ⟨(Push E block (f.acc i)).2.tree.heap, (Push E block (f.acc i)).2.tree.next, f.store j⟩ :=
          ⟨h3.next, h3.leaf⟩
        obtain ⟨h6, h7⟩ := o.shows (h j).leafy (h j).shows fun _ _ => rfl
        exact ⟨⟨(h j).sound.usable, h2.sound.short⟩, h6, h7, h2.cache⟩
    have hr' : (f1.run E calls).map (fun r => ((Push E block (f.acc i)).1 :: r.1, r.2)) = some (outs, f') := by
      simp only [Candidates.run, Candidates.push] at hr
      exact hr
    cases hq : f1.run E calls with
    | none => rw [hq] at hr'; cases hr'
    | some r =>
      obtain ⟨outs1, f2⟩ := r
      rw [hq] at hr'
      simp only [Option.map_some, Option.some.injEq, Prod.mk.injEq] at hr'
      obtain ⟨rfl, rfl⟩ := hr'
      obtain ⟨h5, h6⟩ := candidates_run calls hN1 hf1 hq
      refine ⟨?_, fun j => ?_⟩
      · rw [h5, h1, ← h4.1]; rfl
      · have := h6 j
        by_cases hj : j = i
        · subst hj
          simpa [N1, alone, blocksOf] using this
        · simpa [N1, hj, alone, blocksOf, Ne.symm hj] using this

/-- C141, accounts, the part that holds of the code: blocks are pushed on candidates over the store of a reachable node, in any
order. As long as no push panics, every push has the outcome, and every candidate the accounts, as if it were alone in the
process. -/
theorem C141_push_partial (hn : Reach E n) {calls : List (Nat × Block)} {outs : List (Out Unit)} {f : Candidates}
    (h : (candidates n).run E calls = some (outs, f)) :
    outs = verdicts E calls (fun _ => n) ∧
    ∀ i a, (Node.getAccount a (f.acc i)).1 = (Node.getAccount a (alone E n (blocksOf i calls))).1 := by
  have hl : ∀ i, Loose ((candidates n).acc i) (accountOf n) := fun _ => hn.loose
  obtain ⟨h1, h2⟩ := candidates_run calls (N := fun _ => n) (fun _ => hn) hl h
  refine ⟨h1, fun i a => ?_⟩
  have hr : ∀ (bs : List Block) (n : Node), Reach E n → Reach E (alone E n bs) := by
    intro bs
    induction bs with
    | nil => exact fun _ h => h
    | cons b bs ih => exact fun n h => ih _ (.push b h)
  rw [(h2 i).getAccount, (hr _ n hn).acc.getAccount]

/-- C141 is false of the hash: after a push on one candidate, with any outcome, the accounts on an untouched overlay hash like
the accounts after that push. -/
theorem C141_push_hash_violated (hn : Reach E n) {i j : Nat} (hij : i ≠ j) (block : Block) :
    (Node.hash E.H (((candidates n).push E i block).2.acc j)).1 = (Node.hash E.H (Push E block n).2).1 := by
  rw [← C129_push_hash_violated hn block]
  have e : ((candidates n).push E i block).2.acc j = ⟨⟨(Push E block (tentative n)).2.tree.heap,
      (Push E block (tentative n)).2.tree.next, .overlay n.tree.store (some [])⟩, (Push E block (tentative n)).2.cache⟩ := by
    simp only [Candidates.push, Candidates.acc, if_neg (Ne.symm hij)]; rfl
  rw [e]
  unfold Node.hash backOn Tree.giveUp
  simp only [Tree.hash, Tree.TM.bind_eq, Tree.getNode, Tree.newOverlay_get]
  cases n.tree.store.get [] with
  | none => rfl
  | some p =>
    simp only [Tree.asBranch, Tree.TM.bind_eq, Tree.deref]
    cases (Push E block (tentative n)).2.tree.heap p <;> rfl

/-! ## Two candidates that cannot both be tried -/

/-- A block without transactions. -/
def emptyBlock (miner : Addr) (height : UInt32) (hash : Hash32) : Block := ⟨height, hash, some ⟨miner, [], []⟩⟩

/-- A block without transactions is one put. -/
theorem push_emptyBlock (h : Loose n m) {a : Addr} (ha : m a = .basic ⟨0⟩) {height : UInt32} (h0 : height ≠ 0) (hash : Hash32) :
    ∃ c, Push E (emptyBlock a height hash) n = Node.putEntry E.H a (entryOf (.basic ⟨rewardAt height⟩)) ⟨n.tree, c⟩ ∧
      Policy.Reachable c := by
  obtain ⟨c, e1, e2⟩ := rewardAt_eq h.cache h0
  refine ⟨c, ?_, e2⟩
  have e3 : (nodeLedger E.H).blockReward height n = (.ok (rewardAt height), ⟨n.tree, c⟩) := by
    show Node.blockReward height n = _
    unfold Node.blockReward; rw [e1]
  have hl : Loose ⟨n.tree, c⟩ m := ⟨h.sound, h.leafy, h.shows, e2⟩
  have e4 : (nodeLedger E.H).getAccount a ⟨n.tree, c⟩ = (.ok (.basic ⟨0⟩), ⟨n.tree, c⟩) := by
    rw [← ha]; exact hl.getAccount a
  have e5 : (nodeLedger E.H).putAccount a (some (.basic ⟨rewardAt height⟩)) =
      Node.putEntry E.H a (entryOf (.basic ⟨rewardAt height⟩)) := by
    exact (putAccount_putEntry (H := E.H) a (some (.basic ⟨rewardAt height⟩))).trans (by rw [putBytes_eq]; rfl)
  have e6 : Push E (emptyBlock a height hash) n = (pushInherents (nodeLedger E.H) height ⟨a, [], []⟩) n := rfl
  rw [e6]
  unfold pushInherents pushTx
  simp only [M.bind_eq, e3, e4, addFees, List.foldl_nil]
  have hc : ¬ ((0 : UInt8) ≠ 0xFF ∧ (0 : UInt8) ≠ (Account.basic ⟨0⟩).type) := fun h => h.2 rfl
  rw [if_neg hc]
  simp only [ M.bind_eq, applyIncoming, coinbase, Tx.amount, M.lift,
    UInt64.zero_add, e5]

/-- C141 is false of `Push`: two blocks without transactions on two overlays over new accounts, with miners whose addresses begin
with the same four bits: the second push panics, whichever candidate is first. -/
theorem C141_push_panics_violated {a b : Addr} {i j : Nat} (hij : i ≠ j) (hab : a ≠ b)
    (hf : (Tree.Spec.nibbles a).head? = (Tree.Spec.nibbles b).head?) {height : UInt32} (h0 : height ≠ 0)
    (hr : rewardAt height ≠ 0) (hash hash' : Hash32) :
    (Push E (emptyBlock a height hash) newNode).1 = .ok () ∧ (Push E (emptyBlock b height hash') newNode).1 = .ok () ∧
    (candidates newNode).run E [(i, emptyBlock a height hash), (j, emptyBlock b height hash')] = none := by
  have hL : Loose (tentative newNode) (accountOf newNode) := Reach.loose (E := E) .new
  have hi : ∀ a, accountOf newNode a = .basic ⟨0⟩ := fun a => by rw [accountOf_new]
  have hx : entryOf (.basic ⟨rewardAt height⟩) ≠ [] := by
    rw [Ne, entryOf_eq_nil]
    intro e; apply hr
    simpa [initialAccount] using e
  have ok : ∀ a hash, (Push E (emptyBlock a height hash) newNode).1 = .ok () := fun a hash => by
    rw [← (tentative_spec .new _).1]
    obtain ⟨c, e1, -⟩ := push_emptyBlock (E := E) hL (hi a) h0 hash
    rw [e1]
    obtain ⟨b, w', e2, -⟩ := Tree.putEntry_spec (tentative_rel (Reach.new (E := E)).acc).tree a (entryOf (.basic ⟨rewardAt height⟩))
    unfold Node.putEntry
    simp only [e2]
  refine ⟨ok a hash, ok b hash', ?_⟩
  obtain ⟨c, w', h1, h2, ch, d, t, h, hit, h3, h4, h5⟩ := Tree.left_slot (H := E.H) a _ hx
  obtain ⟨c1, e1, hc1⟩ := push_emptyBlock (E := E) hL (hi a) h0 hash
  have e2 : Push E (emptyBlock a height hash) ((candidates newNode).acc i) = (.ok (), ⟨w', c1⟩) := by
    have : (candidates newNode).acc i = tentative newNode := rfl
    rw [this, e1]
    unfold Node.putEntry
    have : (tentative newNode).tree = Tree.onOverlay Tree.newWorld := rfl
    simp only [this, h1]
  let f1 : Candidates := ⟨w'.heap, w'.next, c1, fun k => if k = i then w'.store else (candidates newNode).store k⟩
  have e3 : (candidates newNode).push E i (emptyBlock a height hash) = (.ok (), f1) := by
    simp only [Candidates.push, e2]; rfl
  have hL' : ∀ k, Loose (f1.acc k) (accountOf (if k = i then (Push E (emptyBlock a height hash) newNode).2 else newNode)) := by
    have hrun : (candidates newNode).run E [(i, emptyBlock a height hash)] = some ([.ok ()], f1) := by
      simp only [Candidates.run, e3, Option.map_some]
    have hL0 : ∀ i, Loose ((candidates newNode).acc i) (accountOf newNode) := fun _ => hL
    have := (candidates_run _ (N := fun _ => newNode) (fun _ => .new) hL0 hrun).2
    intro k
    by_cases hk : k = i
    · subst hk; simpa [alone, blocksOf] using this k
    · simpa [alone, blocksOf, hk, Ne.symm hk] using this k
  have hLj := hL' j
  rw [if_neg (Ne.symm hij)] at hLj
  obtain ⟨c2, e4, -⟩ := push_emptyBlock (E := E) hLj (hi b) h0 hash'
  have e5 : (f1.acc j).tree = ⟨w'.heap, w'.next, .overlay Tree.newWorld.store (some [])⟩ := by
    simp only [f1, Candidates.acc, if_neg (Ne.symm hij)]; rfl
  have hq : Tree.putEntry E.H b (entryOf (.basic ⟨rewardAt height⟩)) ⟨w'.heap, w'.next, .overlay Tree.newWorld.store (some [])⟩ =
      none := by
    refine Tree.orphan_panics_any (p0 := 0) hx hab hf ?_ ?_ ?_ ?_ h2 h3 hit h4 fun k hk hc => ?_
    · exact (Tree.push_inv (Tree.newWorld_inv (H := E.H))).wf.usable
    · rw [Tree.newOverlay_get]; simp [Tree.newWorld, Tree.Store.get, Tree.mget]
    · rw [Tree.newOverlay_get]; simp [Tree.newWorld, Tree.Store.get, Tree.mget, Ne.symm (Tree.keyNibs_ne_nil a)]
    · rw [Tree.newOverlay_get]; simp [Tree.newWorld, Tree.Store.get, Tree.mget, Ne.symm (Tree.keyNibs_ne_nil b)]
    · rw [h5 k hk] at hc; cases hc.1
  have e6 : (f1.push E j (emptyBlock b height hash')).1 = .panic := by
    simp only [Candidates.push, e4, e5, Node.putEntry, hq]
  have e7 : f1.run E [(j, emptyBlock b height hash')] = none := by
    unfold Candidates.run
    rcases hz : f1.push E j (emptyBlock b height hash') with ⟨o, f2⟩
    rw [hz] at e6
    simp only at e6
    subst e6; rfl
  unfold Candidates.run
  rw [e3]
  simp only [e7, Option.map_none]

/-- The block reward is not zero, at the height of the first block. -/
theorem rewardAt_one : rewardAt 1 ≠ 0 := by
  intro h
  have := rewardAt_supply (h := 1) (by decide)
  rw [h] at this
  revert this
  decide

/-- Addresses to which the theorem applies, and candidates to which the other one does. -/
example (hash : Hash32) : (candidates newNode).run E
    [(0, emptyBlock Tree.exA 1 hash), (1, emptyBlock Tree.exB 1 hash)] = none :=
  (C141_push_panics_violated (by decide) (by decide) (by decide) (by decide) rewardAt_one hash hash).2.2

example (hash : Hash32) : ∃ x, (candidates newNode).run E [(0, emptyBlock Tree.exA 1 hash)] = some x := by
  have h1 := (C141_push_panics_violated (E := E) (a := Tree.exA) (b := Tree.exB) (i := 0) (j := 1) (by decide) (by decide)
    (by decide) (by decide) rewardAt_one hash hash).1
  have h2 := (tentative_spec (E := E) .new (emptyBlock Tree.exA 1 hash)).1
  have h3 : (Push E (emptyBlock Tree.exA 1 hash) ((candidates newNode).acc 0)).1 = .ok () := h2.trans h1
  exact ⟨_, by simp only [Candidates.run, Candidates.push, h3, Option.map_some]; rfl⟩

end Nimiq.Accounts
