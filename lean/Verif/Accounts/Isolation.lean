import Verif.Accounts.Props
/-!
# C113: several ledgers in one process

Every `Accounts` value has its own tree, but all of them (and every other caller of package policy) share the global reward
cache `policy.supplyCache`.
-/
namespace Nimiq.Accounts
open Beserial Wire

/-! ## A process with several ledgers -/

/-- The trees of the ledgers of a process and the global cache of policy.go:13-16. -/
structure Process where
  trees : Nat → Tree.World
  cache : List UInt64

/-- A process before its first call: every ledger is a `NewAccounts` on an empty tree over a `NewMemStore()`. -/
def newProcess : Process := ⟨fun _ => Tree.newWorld, Policy.initCache⟩

/-- A call: on one of the ledgers, or of the emission schedule. -/
inductive ProcCall
  | get (i : Nat) (a : Addr)
  | put (i : Nat) (a : Addr) (acc : Option Account)
  | push (i : Nat) (block : Block)
  | hash (i : Nat)
  | supply (height : UInt32)
  | reward (height : UInt32)

/-- The ledger a call is for. -/
def ProcCall.ledger : ProcCall → Option Nat
  | .get i _ => some i
  | .put i _ _ => some i
  | .push i _ => some i
  | .hash i => some i
  | .supply _ => none
  | .reward _ => none

/-- What a call returns. -/
inductive ProcAnswer
  | account (r : Out Account)
  | done (r : Out Unit)
  | hash (r : Out Hash32)
  | amount (r : Out UInt64)

/-- Runs a call of accounts.go on ledger `i`. -/
def Process.on {α : Type} (i : Nat) (x : M Node α) (p : Process) : Out α × Process :=
  let r := x ⟨p.trees i, p.cache⟩
  (r.1, ⟨fun j => if j = i then r.2.tree else p.trees j, r.2.cache⟩)

/-- Runs a call of policy.go. -/
def Process.policy (x : Out (UInt64 × List UInt64)) (p : Process) : Out UInt64 × Process :=
  match x with
  | .ok (r, cache) => (.ok r, { p with cache := cache })
  | .err e => (.err e, p)
  | .panic => (.panic, p)

/-- accounts.go:39-60, 69-99, tree.go `Hash`, policy.go:34-58, 70-77: one call -/
def Process.call (E : Env) (p : Process) : ProcCall → ProcAnswer × Process
  | .get i a => let r := p.on i (Node.getAccount a); (.account r.1, r.2)
  | .put i a acc => let r := p.on i (Node.putAccount E.H a acc); (.done r.1, r.2)
  | .push i block => let r := p.on i (Push E block); (.done r.1, r.2)
  | .hash i => let r := p.on i (Node.hash E.H); (.hash r.1, r.2)
  | .supply h => let r := p.policy (Policy.supplyAfter p.cache h); (.amount r.1, r.2)
  | .reward h => let r := p.policy (Policy.blockReward p.cache h); (.amount r.1, r.2)

/-- A history of calls: the answers and the final state. -/
def Process.run (E : Env) : Process → List ProcCall → List ProcAnswer × Process
  | p, [] => ([], p)
  | p, c :: cs =>
    let r := p.call E c
    let rest := Process.run E r.2 cs
    (r.1 :: rest.1, rest.2)

/-- The answers to the calls for ledger `i`. -/
def answersFor (i : Nat) : List ProcCall → List ProcAnswer → List ProcAnswer
  | c :: cs, r :: rs => if c.ledger = some i then r :: answersFor i cs rs else answersFor i cs rs
  | _, _ => []

/-! ## The cache is invisible -/

/-- Two nodes with the same tree, whatever their caches have been used for. -/
def SameTree (H : Bytes → Hash32) (n n' : Node) : Prop := n.tree = n'.tree ∧ ∃ m, Rel H n m ∧ Rel H n' m

/-- `PutAccount` does not look at the cache. -/
theorem putAccount_tree (H : Bytes → Hash32) (a : Addr) (acc : Option Account) (t : Tree.World) (c c' : List UInt64) :
    (Node.putAccount H a acc ⟨t, c⟩).1 = (Node.putAccount H a acc ⟨t, c'⟩).1 ∧
    (Node.putAccount H a acc ⟨t, c⟩).2.tree = (Node.putAccount H a acc ⟨t, c'⟩).2.tree := by
  have key : ∀ buf, (Node.putEntry H a buf ⟨t, c⟩).1 = (Node.putEntry H a buf ⟨t, c'⟩).1 ∧
      (Node.putEntry H a buf ⟨t, c⟩).2.tree = (Node.putEntry H a buf ⟨t, c'⟩).2.tree := by
    intro buf
    unfold Node.putEntry
    cases Tree.putEntry H a buf t <;> simp
  cases acc with
  | none => exact key []
  | some acc =>
    simp only [Node.putAccount]
    split
    · exact key []
    · cases WrapAccount.enc (some acc) [] with
      | ok buf => exact key buf
      | err e => exact ⟨rfl, rfl⟩
      | panic => exact ⟨rfl, rfl⟩

theorem sameTree_ledger (H : Bytes → Hash32) : SimLedger (SameTree H) (nodeLedger H) (nodeLedger H) where
  get a := by
    rintro n n' ⟨ht, m, h, h'⟩
    show (Node.getAccount a n).1 = (Node.getAccount a n').1 ∧ SameTree H (Node.getAccount a n).2 (Node.getAccount a n').2
    rw [h.getAccount a, h'.getAccount a]
    exact ⟨rfl, ht, m, h, h'⟩
  put a acc := by
    rintro n n' ⟨ht, m, h, h'⟩
    obtain ⟨t, c⟩ := n
    obtain ⟨t', c'⟩ := n'
    obtain rfl : t = t' := ht
    obtain ⟨e1, e2⟩ := putAccount_tree H a acc t c c'
    exact ⟨e1, e2, _, (h.putAccount a acc).2, (h'.putAccount a acc).2⟩
  reward k := by
    rintro n n' ⟨ht, m, h, h'⟩
    have s := (simLedger H).reward k n m h
    have s' := (simLedger H).reward k n' m h'
    refine ⟨s.1.trans s'.1.symm, ?_, _, s.2, s'.2⟩
    show (Node.blockReward k n).2.tree = (Node.blockReward k n').2.tree
    have key : ∀ q : Node, (Node.blockReward k q).2.tree = q.tree := by
      intro q
      unfold Node.blockReward
      split <;> rfl
    rw [key, key, ht]

theorem SameTree.push {E : Env} {n n' : Node} (h : SameTree E.H n n') (block : Block) :
    (Push E block n).1 = (Push E block n').1 ∧ SameTree E.H (Push E block n).2 (Push E block n').2 :=
  sim_push E (sameTree_ledger E.H) block n n' h

/-! ## C113 -/

/-- A state of a process. -/
structure ProcInv (E : Env) (p : Process) : Prop where
  ledger : ∀ i, ∃ m, Rel E.H ⟨p.trees i, p.cache⟩ m
  cache : Policy.Reachable p.cache

theorem ProcInv.new (E : Env) : ProcInv E newProcess := ⟨fun _ => ⟨_, rel_new E.H⟩, .init⟩

theorem ProcInv.recache {E : Env} {p : Process} (h : ProcInv E p) {c : List UInt64} (hc : Policy.Reachable c) :
    ProcInv E { p with cache := c } := ⟨fun i => by obtain ⟨m, hm⟩ := h.ledger i; exact ⟨m, hm.tree, hc⟩, hc⟩

theorem ProcInv.on {E : Env} {p : Process} (h : ProcInv E p) (i : Nat) {α : Type} (x : M Node α)
    (hx : ∃ m, Rel E.H (x ⟨p.trees i, p.cache⟩).2 m) : ProcInv E (p.on i x).2 := by
  obtain ⟨m, hm⟩ := hx
  refine ⟨fun j => ?_, hm.cache⟩
  show ∃ m, Rel E.H ⟨if j = i then _ else p.trees j, _⟩ m
  by_cases hj : j = i
  · rw [if_pos hj]; exact ⟨m, hm⟩
  · rw [if_neg hj]
    obtain ⟨m', hm'⟩ := h.ledger j
    exact ⟨m', hm'.tree, hm.cache⟩

theorem ProcInv.policy {E : Env} {p : Process} (h : ProcInv E p) (x : Out (UInt64 × List UInt64))
    (hx : ∀ r c, x = .ok (r, c) → Policy.Reachable c) : ProcInv E (p.policy x).2 := by
  unfold Process.policy
  split
  · exact h.recache (hx _ _ rfl)
  · exact h
  · exact h

theorem ProcInv.call {E : Env} {p : Process} (h : ProcInv E p) (c : ProcCall) : ProcInv E (p.call E c).2 := by
  cases c with
  | get i a => obtain ⟨m, hm⟩ := h.ledger i; exact h.on i _ ⟨m, by rw [hm.getAccount a]; exact hm⟩
  | put i a acc => obtain ⟨m, hm⟩ := h.ledger i; exact h.on i _ ⟨_, (hm.putAccount a acc).2⟩
  | push i b => obtain ⟨m, hm⟩ := h.ledger i; exact h.on i _ ⟨_, (hm.push b).2⟩
  | hash i => obtain ⟨m, hm⟩ := h.ledger i; exact h.on i _ ⟨m, by rw [hm.hash]; exact hm⟩
  | supply k => exact h.policy _ fun r c e => .supplyAfter h.cache e
  | reward k => exact h.policy _ fun r c e => .blockReward h.cache e

/-- A call for ledger `i` in two processes where its tree is the same. -/
theorem call_same {E : Env} {p q : Process} (hp : ProcInv E p) (hq : ProcInv E q) {i : Nat} (ht : p.trees i = q.trees i)
    (c : ProcCall) (hc : c.ledger = some i) :
    (p.call E c).1 = (q.call E c).1 ∧ (p.call E c).2.trees i = (q.call E c).2.trees i := by
  obtain ⟨m, hm⟩ := hp.ledger i
  have hm' : Rel E.H ⟨q.trees i, q.cache⟩ m := ⟨ht ▸ hm.tree, hq.cache⟩
  have hs : SameTree E.H ⟨p.trees i, p.cache⟩ ⟨q.trees i, q.cache⟩ := ⟨ht, m, hm, hm'⟩
  cases c with
  | get j a =>
    obtain rfl : j = i := Option.some.inj hc
    obtain ⟨e1, e2, _⟩ := (sameTree_ledger E.H).get a _ _ hs
    refine ⟨congrArg ProcAnswer.account e1, ?_⟩
    show (if j = j then _ else _) = (if j = j then _ else _)
    rw [if_pos rfl, if_pos rfl]; exact e2
  | put j a acc =>
    obtain rfl : j = i := Option.some.inj hc
    obtain ⟨e1, e2, _⟩ := (sameTree_ledger E.H).put a acc _ _ hs
    refine ⟨congrArg ProcAnswer.done e1, ?_⟩
    show (if j = j then _ else _) = (if j = j then _ else _)
    rw [if_pos rfl, if_pos rfl]; exact e2
  | push j b =>
    obtain rfl : j = i := Option.some.inj hc
    obtain ⟨e1, e2, _⟩ := hs.push b
    refine ⟨congrArg ProcAnswer.done e1, ?_⟩
    show (if j = j then _ else _) = (if j = j then _ else _)
    rw [if_pos rfl, if_pos rfl]; exact e2
  | hash j =>
    obtain rfl : j = i := Option.some.inj hc
    have e : ∀ n m, Rel E.H n m → Node.hash E.H n = (.ok (Tree.Spec.rootHash E.H (fun a => entryOf (m a))), n) :=
      fun n m h => h.hash
    constructor
    · show ProcAnswer.hash (Node.hash E.H _).1 = ProcAnswer.hash (Node.hash E.H _).1
      rw [e _ _ hm, e _ _ hm']
    · show (if j = j then (Node.hash E.H _).2.tree else _) = (if j = j then (Node.hash E.H _).2.tree else _)
      rw [if_pos rfl, if_pos rfl, e _ _ hm, e _ _ hm']; exact ht
  | supply k => cases hc
  | reward k => cases hc

/-- A call that is not for ledger `i` leaves its tree alone. -/
theorem call_other {E : Env} (p : Process) {i : Nat} (c : ProcCall) (hc : c.ledger ≠ some i) : (p.call E c).2.trees i = p.trees i := by
  have on : ∀ {α : Type} (j : Nat) (x : M Node α), j ≠ i → (p.on j x).2.trees i = p.trees i := by
    intro α j x hj
    show (if i = j then _ else _) = _
    rw [if_neg (Ne.symm hj)]
  have pol : ∀ x, (p.policy x).2.trees = p.trees := by
    intro x; unfold Process.policy; split <;> rfl
  cases c with
  | get j a => exact on j _ fun h => hc (by simp [ProcCall.ledger, h])
  | put j a acc => exact on j _ fun h => hc (by simp [ProcCall.ledger, h])
  | push j b => exact on j _ fun h => hc (by simp [ProcCall.ledger, h])
  | hash j => exact on j _ fun h => hc (by simp [ProcCall.ledger, h])
  | supply k => exact congrFun (pol _) i
  | reward k => exact congrFun (pol _) i

theorem run_isolated {E : Env} (i : Nat) (cs : List ProcCall) {p q : Process} (hp : ProcInv E p) (hq : ProcInv E q)
    (ht : p.trees i = q.trees i) :
    answersFor i cs (p.run E cs).1 = (q.run E (cs.filter fun c => c.ledger = some i)).1 ∧
      (p.run E cs).2.trees i = (q.run E (cs.filter fun c => c.ledger = some i)).2.trees i := by
  induction cs generalizing p q with
  | nil => exact ⟨rfl, ht⟩
  | cons c cs ih =>
    by_cases hc : c.ledger = some i
    · obtain ⟨e1, e2⟩ := call_same hp hq ht c hc
      obtain ⟨i1, i2⟩ := ih (hp.call c) (hq.call c) e2
      rw [List.filter_cons_of_pos (by simpa using hc)]
      simp only [Process.run, answersFor, if_pos hc]
      exact ⟨by rw [e1, i1], i2⟩
    · obtain ⟨i1, i2⟩ := ih (hp.call c) hq ((call_other p c hc).trans ht)
      rw [List.filter_cons_of_neg (by simpa using hc)]
      simp only [Process.run, answersFor, if_neg hc]
      exact ⟨i1, i2⟩

/-- C113. In every history of calls on any number of ledgers in one process, mixed with calls of the emission schedule, every
ledger gives the answers and ends up with the tree it would have if the process had made only the calls for this ledger. -/
theorem C113_isolated (E : Env) (i : Nat) (calls : List ProcCall) :
    answersFor i calls (newProcess.run E calls).1 = (newProcess.run E (calls.filter fun c => c.ledger = some i)).1 ∧
      (newProcess.run E calls).2.trees i = (newProcess.run E (calls.filter fun c => c.ledger = some i)).2.trees i :=
  run_isolated i calls (.new E) (.new E) rfl

/-! ## Other goroutines -/

/-- The operations of one ledger while other goroutines work on other ledgers: at every access the global cache may have
become another one (`env k` before the `k`-th access). policy.go's mutex makes `BlockReward` one access (C25). -/
def sharedLedger (H : Bytes → Hash32) (env : Nat → List UInt64) : Ledger (Node × Nat) where
  getAccount a := fun s => let r := Node.getAccount a ⟨s.1.tree, env s.2⟩; (r.1, (r.2, s.2 + 1))
  putAccount a acc := fun s => let r := Node.putAccount H a acc ⟨s.1.tree, env s.2⟩; (r.1, (r.2, s.2 + 1))
  blockReward k := fun s => let r := Node.blockReward k ⟨s.1.tree, env s.2⟩; (r.1, (r.2, s.2 + 1))

theorem shared_sim (H : Bytes → Hash32) (env : Nat → List UInt64) (henv : ∀ k, Policy.Reachable (env k)) :
    SimLedger (fun (s : Node × Nat) n => SameTree H s.1 n) (sharedLedger H env) (nodeLedger H) := by
  have same : ∀ {s : Node × Nat} {n : Node}, SameTree H s.1 n → SameTree H ⟨s.1.tree, env s.2⟩ n := by
    rintro s n ⟨ht, m, h, h'⟩
    exact ⟨ht, m, ⟨h.tree, henv _⟩, h'⟩
  exact ⟨fun a s n h => (sameTree_ledger H).get a _ _ (same h), fun a acc s n h => (sameTree_ledger H).put a acc _ _ (same h),
    fun k s n h => (sameTree_ledger H).reward k _ _ (same h)⟩

/-- C113. A Push has the same outcome and leaves the same tree whatever other goroutines do to the global cache meanwhile, at
every single access, and leaves a cache that other goroutines can use. -/
theorem C113_concurrent (E : Env) (env : Nat → List UInt64) (henv : ∀ k, Policy.Reachable (env k)) {n : Node} (hn : Reach E n)
    (block : Block) :
    let r := push E (sharedLedger E.H env) block (n, 0)
    r.1 = (Push E block n).1 ∧ r.2.1.tree = (Push E block n).2.tree ∧ Policy.Reachable r.2.1.cache := by
  obtain ⟨h1, h2, m, h3, _⟩ := sim_push E (shared_sim E.H env henv) block (n, 0) n ⟨rfl, _, hn.acc, hn.acc⟩
  exact ⟨h1, h2, h3.cache⟩

/-- Two ledgers, one of which has received something while the other has not. -/
example (E : Env) (a : Addr) :
    answersFor 1 [.put 0 a (some (.basic ⟨5⟩)), .get 1 a, .supply 7, .put 1 a (some (.basic ⟨6⟩)), .get 1 a]
      (newProcess.run E [.put 0 a (some (.basic ⟨5⟩)), .get 1 a, .supply 7, .put 1 a (some (.basic ⟨6⟩)), .get 1 a]).1 =
      [.account (.ok (.basic ⟨0⟩)), .done (.ok ()), .account (.ok (.basic ⟨6⟩))] := by
  rw [(C113_isolated E 1 _).1]
  have h1 := (rel_new E.H).getAccount a
  have h2 := (rel_new E.H).putAccount a (some (.basic ⟨6⟩))
  have h3 := h2.2.getAccount a
  show [ProcAnswer.account (Node.getAccount a newNode).1, .done (Node.putAccount E.H a (some (.basic ⟨6⟩)) (Node.getAccount a newNode).2).1,
    .account (Node.getAccount a (Node.putAccount E.H a (some (.basic ⟨6⟩)) (Node.getAccount a newNode).2).2).1] = _
  rw [h1, h2.1, h3]
  simp [initialAccount]

end Nimiq.Accounts
