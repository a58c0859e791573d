import Verif.Accounts.Abstract
import Verif.Tree.Access
/-!
# C109, C110: accounts over any store

`Model.lean` has package accounts over the tree on a `MemStore` (or overlays). Here it runs on a tree over an arbitrary
implementation of `Store` (`Tree/StoreImpl.lean`), which is what `NewAccounts` accepts.
-/
namespace Nimiq.Accounts
open Beserial Wire Tree.Generic
open Nimiq.Tree (GoMap)

variable {σ : Type} {I : Impl σ} {view : σ → Tree.Nibbles → Option Tree.Ptr} {H : Bytes → Hash32}

/-- The tree over a store with states `σ`, and the global reward cache of package policy. -/
structure GNode (σ : Type) where
  tree : GWorld σ
  cache : List UInt64

/-- accounts.go:69-85 `GetAccount` -/
def GNode.getAccount (I : Impl σ) (addr : Addr) : M (GNode σ) Account := fun n =>
  match Tree.Generic.getEntry I addr n.tree with
  | none => (.panic, n)
  | some (entry, tree) =>
    let n := { n with tree := tree }
    let buf := entry.getD []
    if buf.length ≤ 0 then (.ok initialAccount, n)
    else
      match WrapAccount.dec buf with
      | .ok (k, some acc) => if k ≠ buf.length then (.panic, n) else (.ok acc, n)
      | .ok (_, none) => (.panic, n)
      | .err _ => (.panic, n)
      | .panic => (.panic, n)

/-- `a.Tree.PutEntry(addr, buf)` -/
def GNode.putEntry (I : Impl σ) (H : Bytes → Hash32) (addr : Addr) (buf : Bytes) : M (GNode σ) Unit := fun n =>
  match Tree.Generic.putEntry I H addr buf n.tree with
  | none => (.panic, n)
  | some (_, tree) => (.ok (), { n with tree := tree })

/-- accounts.go:87-99 `PutAccount` -/
def GNode.putAccount (I : Impl σ) (H : Bytes → Hash32) (addr : Addr) : Option Account → M (GNode σ) Unit
  | none => GNode.putEntry I H addr []
  | some acc =>
    if acc.type = 0 ∧ isEmpty acc = true then GNode.putEntry I H addr []
    else
      match WrapAccount.enc (some acc) [] with
      | .ok buf => GNode.putEntry I H addr buf
      | .err _ => M.panic
      | .panic => M.panic

/-- `policy.BlockReward(height)` with the global cache -/
def GNode.blockReward (height : UInt32) : M (GNode σ) UInt64 := fun n =>
  match Policy.blockReward n.cache height with
  | .ok (r, cache) => (.ok r, { n with cache := cache })
  | .err e => (.err e, n)
  | .panic => (.panic, n)

/-- accounts.go on a tree over the store `I`. -/
def storeLedger (I : Impl σ) (H : Bytes → Hash32) : Ledger (GNode σ) where
  getAccount := GNode.getAccount I
  putAccount := GNode.putAccount I H
  blockReward := GNode.blockReward

/-- accounts.go:39-60 `Accounts.Push` on a tree over the store `I` -/
def PushOn (I : Impl σ) (E : Env) (block : Block) : M (GNode σ) Unit := push E (storeLedger I E.H) block

/-- `a.Tree.Hash()` -/
def GNode.hash (I : Impl σ) (H : Bytes → Hash32) : M (GNode σ) Hash32 := fun n =>
  match Tree.Generic.hash I H n.tree with
  | none => (.panic, n)
  | some (h, tree) => (.ok h, { n with tree := tree })

/-! ## Simulation -/

/-- The two nodes have the same nodes behind similar stores. -/
def Same (view : σ → Tree.Nibbles → Option Tree.Ptr) (g : GNode σ) (n : Node) : Prop :=
  Tree.Generic.Sim view g.tree n.tree ∧ g.cache = n.cache

theorem same_get (hI : KeepsPointers I view) (a : Addr) :
    Accounts.Sim (Same view) (GNode.getAccount I a) (Node.getAccount a) := by
  rintro g n ⟨hs, hc⟩
  unfold GNode.getAccount Node.getAccount
  rcases sim_getEntry hI.ops a g.tree n.tree hs with ⟨h1, h2⟩ | ⟨e, g', w', h1, h2, hs'⟩
  · rw [h1, h2]; exact ⟨rfl, hs, hc⟩
  · rw [h1, h2]
    simp only []
    split
    · exact ⟨rfl, hs', hc⟩
    · rcases WrapAccount.dec (e.getD []) with ⟨k, _ | acc⟩ | x | _
      · exact ⟨rfl, hs', hc⟩
      · simp only []
        split
        · exact ⟨rfl, hs', hc⟩
        · exact ⟨rfl, hs', hc⟩
      · exact ⟨rfl, hs', hc⟩
      · exact ⟨rfl, hs', hc⟩

theorem same_putEntry (hI : KeepsPointers I view) (a : Addr) (buf : Bytes) :
    Accounts.Sim (Same view) (GNode.putEntry I H a buf) (Node.putEntry H a buf) := by
  rintro g n ⟨hs, hc⟩
  unfold GNode.putEntry Node.putEntry
  rcases sim_putEntry (H := H) hI.ops a buf g.tree n.tree hs with ⟨h1, h2⟩ | ⟨e, g', w', h1, h2, hs'⟩
  · rw [h1, h2]; exact ⟨rfl, hs, hc⟩
  · rw [h1, h2]; exact ⟨rfl, hs', hc⟩

theorem same_put (hI : KeepsPointers I view) (a : Addr) (acc : Option Account) :
    Accounts.Sim (Same view) (GNode.putAccount I H a acc) (Node.putAccount H a acc) := by
  cases acc with
  | none => exact same_putEntry hI a []
  | some acc =>
    refine Sim.ite (same_putEntry hI a []) ?_
    cases WrapAccount.enc (some acc) [] with
    | ok buf => exact same_putEntry hI a buf
    | err e => exact Sim.panic
    | panic => exact Sim.panic

theorem same_reward (k : UInt32) : Accounts.Sim (Same view) (GNode.blockReward k) (Node.blockReward k) := by
  rintro g n ⟨hs, hc⟩
  unfold GNode.blockReward Node.blockReward
  rw [hc]
  cases Policy.blockReward n.cache k with
  | ok r => exact ⟨rfl, hs, rfl⟩
  | err e => exact ⟨rfl, hs, hc⟩
  | panic => exact ⟨rfl, hs, hc⟩

theorem same_hash (hI : KeepsPointers I view) : Accounts.Sim (Same view) (GNode.hash I H) (Node.hash H) := by
  rintro g n ⟨hs, hc⟩
  unfold GNode.hash Node.hash
  rcases sim_hash (H := H) hI.ops g.tree n.tree hs with ⟨h1, h2⟩ | ⟨e, g', w', h1, h2, hs'⟩
  · rw [h1, h2]; exact ⟨rfl, hs, hc⟩
  · rw [h1, h2]; exact ⟨rfl, hs', hc⟩

theorem same_ledger (hI : KeepsPointers I view) : SimLedger (Same view) (storeLedger I H) (nodeLedger H) where
  get a := same_get hI a
  put a acc := same_put hI a acc
  reward k := same_reward k

/-! ## Histories -/

/-- What a user does with an `Accounts` value. -/
inductive Call where
  | put (a : Addr) (acc : Option Account)
  | push (block : Block)
  | get (a : Addr)
  | hash

/-- What the user sees. -/
inductive Answer where
  | done (o : Out Unit)
  | account (o : Out Account)
  | root (o : Out Hash32)

/-- One call on a tree over the store `I`. -/
def callOn (I : Impl σ) (E : Env) (c : Call) (g : GNode σ) : Answer × GNode σ :=
  match c with
  | .put a acc => let r := GNode.putAccount I E.H a acc g; (.done r.1, r.2)
  | .push b => let r := PushOn I E b g; (.done r.1, r.2)
  | .get a => let r := GNode.getAccount I a g; (.account r.1, r.2)
  | .hash => let r := GNode.hash I E.H g; (.root r.1, r.2)

/-- One call on a tree over a `MemStore`. -/
def callMem (E : Env) (c : Call) (n : Node) : Answer × Node :=
  match c with
  | .put a acc => let r := Node.putAccount E.H a acc n; (.done r.1, r.2)
  | .push b => let r := Push E b n; (.done r.1, r.2)
  | .get a => let r := Node.getAccount a n; (.account r.1, r.2)
  | .hash => let r := Node.hash E.H n; (.root r.1, r.2)

/-- The answers to a sequence of calls. -/
def answers {τ : Type} (step : Call → τ → Answer × τ) : List Call → τ → List Answer
  | [], _ => []
  | c :: cs, s => (step c s).1 :: answers step cs (step c s).2

theorem same_call (hI : KeepsPointers I view) (E : Env) (c : Call) {g : GNode σ} {n : Node} (h : Same view g n) :
    (callOn I E c g).1 = (callMem E c n).1 ∧ Same view (callOn I E c g).2 (callMem E c n).2 := by
  cases c with
  | put a acc => have := same_put (H := E.H) hI a acc g n h; exact ⟨congrArg Answer.done this.1, this.2⟩
  | push b => have := sim_push E (same_ledger (H := E.H) hI) b g n h; exact ⟨congrArg Answer.done this.1, this.2⟩
  | get a => have := same_get hI a g n h; exact ⟨congrArg Answer.account this.1, this.2⟩
  | hash => have := same_hash (H := E.H) hI g n h; exact ⟨congrArg Answer.root this.1, this.2⟩

theorem same_answers (hI : KeepsPointers I view) (E : Env) : ∀ (cs : List Call) {g : GNode σ} {n : Node}, Same view g n →
    answers (callOn I E) cs g = answers (callMem E) cs n
  | [], _, _, _ => rfl
  | c :: cs, g, n, h => by
    obtain ⟨h1, h2⟩ := same_call hI E c h
    rw [answers, answers, h1, same_answers hI E cs h2]

/-- The answers are those of a map from addresses to accounts: the specification. -/
noncomputable def callMap (E : Env) (c : Call) (m : AMap) : Answer × AMap :=
  match c with
  | .put a acc => (.done (.ok ()), m.set a (acc.getD initialAccount))
  | .push b => let r := push E mapLedger b m; (.done r.1, r.2)
  | .get a => (.account (.ok (m a)), m)
  | .hash => (.root (.ok (Tree.Spec.rootHash E.H fun a => entryOf (m a))), m)

theorem map_call (E : Env) (c : Call) {n : Node} {m : AMap} (h : Rel E.H n m) :
    (callMem E c n).1 = (callMap E c m).1 ∧ Rel E.H (callMem E c n).2 (callMap E c m).2 := by
  cases c with
  | put a acc => exact ⟨congrArg Answer.done (h.putAccount a acc).1, (h.putAccount a acc).2⟩
  | push b => exact ⟨congrArg Answer.done (h.push b).1, (h.push b).2⟩
  | get a =>
    simp only [callMem, h.getAccount a]
    exact ⟨rfl, h⟩
  | hash =>
    simp only [callMem, h.hash]
    exact ⟨rfl, h⟩

theorem map_answers (E : Env) : ∀ (cs : List Call) {n : Node} {m : AMap}, Rel E.H n m →
    answers (callMem E) cs n = answers (callMap E) cs m
  | [], _, _, _ => rfl
  | c :: cs, n, m, h => by
    obtain ⟨h1, h2⟩ := map_call E c h
    rw [answers, answers, h1, map_answers E cs h2]

/-- A node on the fresh store `g`. -/
def onFresh (g : GWorld σ) : GNode σ := ⟨g, Policy.initCache⟩

theorem fresh_same (g : GWorld σ) (hf : Fresh view g) : ∃ n, Same view (onFresh g) n ∧ Rel H n (fun _ => initialAccount) := by
  obtain ⟨p, hp, hh, hv⟩ := hf
  refine ⟨⟨⟨g.heap, g.next, .mem [([], p)]⟩, Policy.initCache⟩, ⟨fresh_sim hv, rfl⟩, ?_, .init⟩
  have : (fun _ : Addr => entryOf initialAccount) = fun _ => [] := by funext a; simp [entryOf]
  rw [this]
  exact fresh_inv hp hh

/-- **C109**: accounts on a tree over any store that keeps the pointers it is given answer every sequence of calls
(`PutAccount`, `Push`, `GetAccount`, `Hash`) exactly as accounts on a new `MemStore`. -/
theorem C109_any_store (hI : KeepsPointers I view) (E : Env) (g : GWorld σ) (hf : Fresh view g) (cs : List Call) :
    answers (callOn I E) cs (onFresh g) = answers (callMem E) cs newNode := by
  obtain ⟨n, h1, h2⟩ := fresh_same (H := E.H) g hf
  rw [same_answers hI E cs h1, map_answers E cs h2, map_answers E cs (rel_new E.H)]

/-! ## Calls of the store -/

/-- A call that makes at most `k` calls of the store, with any outcome, from every state that holds some accounts. -/
def AtMost (view : σ → Tree.Nibbles → Option Tree.Ptr) (H : Bytes → Hash32) {α : Type} (k : Nat) (x : M (GNode (σ × Nat)) α) :
    Prop :=
  ∀ g n m, Same (fun s => view s.1) g n → Rel H n m → calls (x g).2.tree ≤ calls g.tree + k ∧
    ∃ n' m', Same (fun s => view s.1) (x g).2 n' ∧ Rel H n' m'

section
variable {α β : Type} {k j : Nat}

theorem AtMost.mono {x : M (GNode (σ × Nat)) α} (h : AtMost view H k x) (hk : k ≤ j) : AtMost view H j x := by
  intro g n m hs hr
  obtain ⟨h1, h2⟩ := h g n m hs hr
  exact ⟨by omega, h2⟩

theorem AtMost.bind {x : M (GNode (σ × Nat)) α} {f : α → M (GNode (σ × Nat)) β} (h : AtMost view H k x)
    (hf : ∀ a, AtMost view H j (f a)) : AtMost view H (k + j) (x >>= f) := by
  intro g n m hs hr
  obtain ⟨h1, n1, m1, hs1, hr1⟩ := h g n m hs hr
  show calls (M.bind x f g).2.tree ≤ _ ∧ ∃ n' m', Same _ (M.bind x f g).2 n' ∧ _
  unfold M.bind
  rcases hx : x g with ⟨o, g1⟩
  rw [hx] at h1 hs1
  simp only at h1 hs1
  cases o with
  | ok a =>
    obtain ⟨h2, h3⟩ := hf a g1 n1 m1 hs1 hr1
    exact ⟨by simp only []; omega, h3⟩
  | err e => exact ⟨by simp only []; omega, n1, m1, hs1, hr1⟩
  | panic => exact ⟨by simp only []; omega, n1, m1, hs1, hr1⟩

theorem AtMost.free {x : M (GNode (σ × Nat)) α} (h : ∀ g, (x g).2 = g) : AtMost view H k x := by
  intro g n m hs hr
  rw [h]
  exact ⟨by omega, n, m, hs, hr⟩

theorem AtMost.ite {c : Prop} [Decidable c] {x y : M (GNode (σ × Nat)) α} (h : AtMost view H k x) (h' : AtMost view H k y) :
    AtMost view H k (if c then x else y) := by
  split <;> assumption

theorem AtMost.forTxs {f : Tx → M (GNode (σ × Nat)) Unit} (h : ∀ tx, AtMost view H k (f tx)) :
    ∀ txs, AtMost view H (k * txs.length) (forTxs txs f)
  | [] => AtMost.free fun _ => rfl
  | tx :: txs => ((h tx).bind fun _ => AtMost.forTxs h txs).mono (by simp [Nat.mul_add]; omega)

end

section
variable (hI : KeepsPointers I view)
include hI

theorem calls_get {a : Addr} {g g' : GWorld (σ × Nat)} {w : Tree.World} {r} (hs : Tree.Generic.Sim (fun s => view s.1) g w)
    (h : Tree.Generic.getEntry (counted I) a g = some (r, g')) : calls g' = calls g + 1 := by
  have hc := cost_getEntry hI a
  rcases sim_getEntry (counted_keeps hI).ops a g w hs with ⟨h1, _⟩ | ⟨e, g1, w', h1, h2, _⟩
  · rw [h] at h1; simp at h1
  · obtain ⟨g2, n, k1, _, k3, k4⟩ := hc g w _ _ hs h2
    rw [h] at k1
    simp only [Option.some.injEq, Prod.mk.injEq] at k1
    rw [k1.2, k3, k4]

theorem atMost_get (a : Addr) : AtMost view H 1 (GNode.getAccount (counted I) a) := by
  intro g n m hs hr
  have hsim := same_get (counted_keeps hI) a g n hs
  rw [hr.getAccount a] at hsim
  refine ⟨?_, n, m, hsim.2, hr⟩
  unfold GNode.getAccount
  cases he : Tree.Generic.getEntry (counted I) a g.tree with
  | none => simp only []; omega
  | some r =>
    obtain ⟨e, g'⟩ := r
    have := calls_get hI hs.1 he
    have hfin : ∀ o : Out Account, calls ((o, ({ g with tree := g' } : GNode (σ × Nat))).2).tree ≤ calls g.tree + 1 := by
      intro o; show calls g' ≤ _; omega
    simp only []
    split
    · exact hfin _
    · split
      · split
        · exact hfin _
        · exact hfin _
      · exact hfin _
      · exact hfin _
      · exact hfin _

theorem atMost_put (hz : ∀ x, H x ≠ Tree.zeroHash) (a : Addr) (acc : Option Account) :
    AtMost view H 128 (GNode.putAccount (counted I) H a acc) := by
  intro g n m hs hr
  have hsim := same_put (H := H) (counted_keeps hI) a acc g n hs
  refine ⟨?_, _, _, hsim.2, (hr.putAccount a acc).2⟩
  have key : ∀ buf, calls (GNode.putEntry (counted I) H a buf g).2.tree ≤ calls g.tree + 128 := by
    intro buf
    unfold GNode.putEntry
    obtain ⟨b, g', k1, k2, _⟩ := put_calls hI hr.tree (fun x _ => hz x) hs.1 a buf
    rw [k1]
    exact k2
  cases acc with
  | none => exact key []
  | some acc =>
    unfold GNode.putAccount
    simp only []
    by_cases hc : acc.type = 0 ∧ isEmpty acc = true
    · rw [if_pos hc]; exact key []
    · rw [if_neg hc]
      cases WrapAccount.enc (some acc) [] with
      | ok buf => exact key buf
      | err e => show calls g.tree ≤ _; omega
      | panic => show calls g.tree ≤ _; omega

omit hI in
theorem atMost_reward (k : UInt32) : AtMost view H 0 (GNode.blockReward k) := by
  intro g n m hs hr
  have hsim := same_reward (view := fun s : σ × Nat => view s.1) k g n hs
  have h2 := (simLedger H).reward k n m hr
  refine ⟨?_, _, _, hsim.2, h2.2⟩
  unfold GNode.blockReward
  cases Policy.blockReward g.cache k with
  | ok r => show calls g.tree ≤ _; omega
  | err e => show calls g.tree ≤ _; omega
  | panic => show calls g.tree ≤ _; omega

variable (hz : ∀ x, H x ≠ Tree.zeroHash)
include hz

theorem atMost_pushTx (a : Addr) (ty : UInt8) (tx : Tx) (h : UInt32) (op : AccountOp) :
    AtMost view H 129 (pushTx (storeLedger (counted I) H) a ty tx h op) := by
  refine (AtMost.bind (k := 1) (j := 128) (atMost_get hI a) fun acc => ?_)
  exact AtMost.ite (AtMost.free fun _ => rfl)
    ((AtMost.bind (k := 0) (AtMost.free fun _ => rfl) fun x => atMost_put hI hz a (some x)).mono (by omega))

theorem atMost_createContract (E : Env) (tx : Tx) (h : UInt32) :
    AtMost view H 129 (createContract E (storeLedger (counted I) H) tx h) := by
  unfold createContract
  refine AtMost.ite (AtMost.free fun _ => rfl) (AtMost.bind (k := 1) (j := 128) (atMost_get hI _) fun acc =>
    AtMost.ite (AtMost.free fun _ => rfl) (AtMost.ite ?_ (AtMost.ite ?_ (AtMost.free fun _ => rfl))))
  · exact (AtMost.bind (k := 0) (AtMost.free fun _ => rfl) fun x => atMost_put hI hz _ (some x)).mono (by omega)
  · exact (AtMost.bind (k := 0) (AtMost.free fun _ => rfl) fun x => atMost_put hI hz _ (some x)).mono (by omega)

theorem atMost_pruneLoop (E : Env) : ∀ (txs : List Tx) (pm : PruneMap),
    AtMost view H (129 * txs.length) (pruneLoop E (storeLedger (counted I) H) txs pm)
  | [], pm => AtMost.free fun _ => rfl
  | tx :: txs, pm => by
    unfold pruneLoop
    refine (AtMost.bind (k := 1) (j := 128 + 129 * txs.length) (atMost_get hI _) fun acc => AtMost.ite ?_ ?_).mono
      (by simp [Nat.mul_add]; omega)
    · exact (atMost_pruneLoop E txs _).mono (by omega)
    · cases pm.get (tx.getSender E.H).1 with
      | none => exact AtMost.free fun _ => rfl
      | some x =>
        exact AtMost.ite (AtMost.free fun _ => rfl) (AtMost.bind (atMost_put hI hz _ none) fun _ => atMost_pruneLoop E txs _)

end

/-- **C110**: `Push` on a tree over any store that keeps pointers calls the store at most 129 times for each of the four passes
over the transactions and 129 times for the reward — with any outcome, and however many accounts there are. -/
theorem C110_push_calls (hI : KeepsPointers I view) (E : Env) (hz : ∀ x, E.H x ≠ Tree.zeroHash) (g : GWorld (σ × Nat))
    (hf : Fresh (fun s => view s.1) g) (cs : List Call) (block : Block) (body : Body) (hb : block.body = some body) :
    let s := cs.foldl (fun s c => (callOn (counted I) E c s).2) (onFresh g)
    calls (PushOn (counted I) E block s).2.tree ≤ calls s.tree + 129 * (4 * body.txs.length + 1) := by
  have hrun : ∀ (cs : List Call) (s : GNode (σ × Nat)) (n : Node) (m : AMap), Same (fun s => view s.1) s n → Rel E.H n m →
      ∃ n' m', Same (fun s => view s.1) (cs.foldl (fun s c => (callOn (counted I) E c s).2) s) n' ∧ Rel E.H n' m' := by
    intro cs
    induction cs with
    | nil => intro s n m h1 h2; exact ⟨n, m, h1, h2⟩
    | cons c cs ih =>
      intro s n m h1 h2
      exact ih _ _ _ (same_call (counted_keeps hI) E c h1).2 (map_call E c h2).2
  obtain ⟨n0, h1, h2⟩ := fresh_same (H := E.H) g hf
  obtain ⟨n, m, hs, hr⟩ := hrun cs _ n0 _ h1 h2
  have key : AtMost view E.H (129 * (4 * body.txs.length + 1)) (PushOn (counted I) E block) := by
    unfold PushOn push
    rw [hb]
    have hp : AtMost view E.H (129 * body.txs.length + (129 * body.txs.length + (129 * body.txs.length +
        (129 * body.txs.length + (0 + 129))))) (PushOn (counted I) E ⟨block.height, block.accountsHash, some body⟩) := by
      refine AtMost.bind (AtMost.forTxs (fun tx => atMost_pushTx hI hz _ _ _ _ _) _) fun _ => ?_
      refine AtMost.bind (AtMost.forTxs (fun tx => atMost_pushTx hI hz _ _ _ _ _) _) fun _ => ?_
      refine AtMost.bind (AtMost.forTxs (fun tx => AtMost.ite (atMost_createContract hI hz E _ _) (AtMost.free fun _ => rfl)) _) fun _ => ?_
      refine AtMost.bind ?_ fun _ => ?_
      · unfold pruneAccounts
        refine (AtMost.bind (j := 0) (atMost_pruneLoop hI hz E _ _) fun pm => ?_).mono (by omega)
        by_cases h : pm.map (·.1) ≠ []
        · simp only [dif_pos h]; exact AtMost.free fun _ => rfl
        · simp only [dif_neg h]; exact AtMost.free fun _ => rfl
      · exact AtMost.bind (atMost_reward _) fun r => atMost_pushTx hI hz _ _ _ _ _
    exact hp.mono (by omega)
  exact (key _ n m hs hr).1

/-- An `OverlayStore` over an `OverlayStore` over a new `MemStore` meets the hypotheses, and so does the same behind a counter
(C109, C110). -/
example (E : Env) (cs : List Call) :
    let I := overlayStore (overlayStore memStore)
    let g : GWorld ((GoMap Tree.Ptr × GoMap (Option Tree.Ptr)) × GoMap (Option Tree.Ptr)) :=
      ⟨fun _ => .branch [] (fun _ => Tree.Child.zero), 1, (([([], 0)], []), [])⟩
    answers (callOn I E) cs (onFresh g) = answers (callMem E) cs newNode ∧
    answers (callOn (counted I) E) cs (onFresh ⟨g.heap, g.next, (g.st, 0)⟩) = answers (callMem E) cs newNode := by
  intro I g
  have hI := C102_overlayStore (C102_overlayStore C102_memStore)
  have hv : ∀ k, (fun (s : (GoMap Tree.Ptr × GoMap (Option Tree.Ptr)) × GoMap (Option Tree.Ptr)) k =>
      (Tree.mget s.2 k).getD ((Tree.mget s.1.2 k).getD (Tree.mget s.1.1 k))) g.st k = if k = [] then some 0 else none := by
    intro k
    by_cases h : k = []
    · subst h; rfl
    · simp [g, Tree.mget, h, Ne.symm h]
  exact ⟨C109_any_store hI E g ⟨0, Nat.one_pos, rfl, hv⟩ cs,
    C109_any_store (counted_keeps hI) E _ ⟨0, Nat.one_pos, rfl, hv⟩ cs⟩

end Nimiq.Accounts
