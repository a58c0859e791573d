import Verif.Accounts.Local
import Verif.Accounts.Single
/-!
# C140: several goroutines push at the same time

C106, C107, C128 and C134 are about goroutines inside the tree. Here the program is given the benefit of a tree that does one
operation at a time: reading an account, writing an account and asking for the reward are atomic, and goroutines that execute
`Push` take turns between these operations in any order.
-/
namespace Nimiq.Accounts
open Beserial Beserial.Spec Wire Spec

/-! ## Push, operation by operation -/

instance : Monad Prog where
  pure a := .done (.ok a)
  bind := Prog.bind

namespace Prog

/-- accounts.go:69-85 `a.GetAccount(addr)`, as one operation -/
def getAccount (a : Addr) : Prog Account := .get a fun x => .done (.ok x)
/-- accounts.go:87-99 `a.PutAccount(addr, x)`, as one operation -/
def putAccount (a : Addr) (x : Option Account) : Prog Unit := .put a x (.done (.ok ()))
/-- accounts.go:137-159 (policy.go `BlockReward`), as one operation -/
def blockReward (h : UInt32) : Prog UInt64 := .reward h fun r => .done (.ok r)
/-- `return err` (accounts.go) -/
def throw {α : Type} (e : Err) : Prog α := .done (.err e)
/-- `panic` (accounts.go:210-239, 39-60) -/
def panic {α : Type} : Prog α := .done .panic

/-- accounts.go:101-135 `for _, tx := range block.Body.Txs` -/
def forTxs : List Tx → (Tx → Prog Unit) → Prog Unit
  | [], _ => return ()
  | tx :: txs, f => do
    f tx
    forTxs txs f

/-- accounts.go:241-255 `pushTx` -/
def pushTx (address : Addr) (accType : UInt8) (tx : Tx) (height : UInt32) (op : AccountOp) : Prog Unit := do
  let account ← getAccount address
  if accType ≠ 0xFF ∧ accType ≠ account.type then throw (.typeMismatch accType account.type)
  else
    let newAccount ← Prog.done (op account tx height)
    putAccount address (some newAccount)

variable (E : Env)

/-- accounts.go:210-239 `createContract` -/
def createContract (tx : Tx) (height : UInt32) : Prog Unit := do
  let content := tx.content E.H
  if content.flags &&& 0x01 = 0 then panic
  else
    let acc ← getAccount content.recipient
    if content.recipientType = 0 then throw (.invalidForRecipient content.recipient)
    else if content.recipientType = 1 then
      let newAcc ← Prog.done (initVesting tx height (balance acc))
      putAccount content.recipient (some newAcc)
    else if content.recipientType = 2 then
      let newAcc ← Prog.done (initHTLC tx height (balance acc))
      putAccount content.recipient (some newAcc)
    else throw (.invalidForRecipient content.recipient)

/-- accounts.go:170-193: the loop of `pruneAccounts` -/
def pruneLoop : List Tx → PruneMap → Prog PruneMap
  | [], pruned => return pruned
  | tx :: txs, pruned => do
    let sender ← getAccount (tx.getSender E.H).1
    if isEmpty sender = false ∨ sender.type = 0 then pruneLoop txs pruned
    else
      match pruned.get (tx.getSender E.H).1 with
      | none => throw (.pruneMissing (tx.getSender E.H).1)
      | some prunedAcc =>
        if accountEq prunedAcc (some sender) = false then throw (.pruneAltered (tx.getSender E.H).1)
        else
          putAccount (tx.getSender E.H).1 none
          pruneLoop txs (pruned.del (tx.getSender E.H).1)

/-- accounts.go:39-60, 101-208 `Push` -/
def push (block : Block) : Prog Unit :=
  match block.body with
  | none => panic
  | some body => do
    forTxs body.txs fun tx =>
      pushTx (tx.content E.H).sender (tx.content E.H).senderType tx block.height (applyOutgoing E)
    forTxs body.txs fun tx =>
      pushTx (tx.content E.H).recipient
        (if (tx.content E.H).flags &&& 0x01 = 0 then (tx.content E.H).recipientType else 0xFF) tx block.height applyIncoming
    forTxs body.txs fun tx =>
      if (tx.content E.H).flags &&& 0x01 ≠ 0 then createContract E tx block.height else return ()
    let pruned ← pruneLoop E body.txs (pruneMap body.pruned)
    if h : pruned.map (·.1) ≠ [] then throw (.pruneEarly (E.pick (pruned.map (·.1)) h).val)
    else
      let reward ← blockReward block.height
      pushTx body.minerAddr 0 (coinbase body.minerAddr (addFees reward body.txs) block.height) block.height applyIncoming

/-! ## Goroutines -/

/-- The next operation of a goroutine executing accounts.go:39-60. A goroutine that has returned (or panicked) does nothing. -/
def step {σ α : Type} (L : Ledger σ) : Prog α → σ → Prog α × σ
  | .done o, s => (.done o, s)
  | .get a k, s =>
    match L.getAccount a s with
    | (.ok x, s) => (k x, s)
    | (.err e, s) => (.done (.err e), s)
    | (.panic, s) => (.done .panic, s)
  | .put a x k, s =>
    match L.putAccount a x s with
    | (.ok _, s) => (k, s)
    | (.err e, s) => (.done (.err e), s)
    | (.panic, s) => (.done .panic, s)
  | .reward h k, s =>
    match L.blockReward h s with
    | (.ok r, s) => (k r, s)
    | (.err e, s) => (.done (.err e), s)
    | (.panic, s) => (.done .panic, s)

/-- Goroutines 0, 1, 2, …: what each has still to do. -/
abbrev Pool := Nat → Prog Unit

/-- The goroutines take turns as the schedule says (Go's scheduler; accounts.go has no lock). -/
def interleave {σ : Type} (L : Ledger σ) : List Nat → Pool → σ → Pool × σ
  | [], t, s => (t, s)
  | i :: is, t, s => interleave L is (fun j => if j = i then ((t i).step L s).1 else t j) ((t i).step L s).2

end Prog

/-- Goroutine `i` executes `Push(block i)` (accounts.go:39-60), all on the same accounts. -/
def pushAll (E : Env) (block : Nat → Block) (schedule : List Nat) (n : Node) : Prog.Pool × Node :=
  Prog.interleave (nodeLedger E.H) schedule (fun i => Prog.push E (block i)) n

/-! ## The program is `Push` -/

namespace Prog
variable {σ α β : Type} {L : Ledger σ} {E : Env}

theorem bind_def (p : Prog α) (f : α → Prog β) : (p >>= f) = p.bind f := rfl

theorem run_getAccount (a : Addr) : (getAccount a).run L = L.getAccount a := HasProg.bind_pure _
theorem run_putAccount (a : Addr) (x : Option Account) : (putAccount a x).run L = L.putAccount a x := HasProg.bind_pure _
theorem run_blockReward (h : UInt32) : (blockReward h).run L = L.blockReward h := HasProg.bind_pure _
theorem run_bind' (p : Prog α) (f : α → Prog β) : (p >>= f).run L = p.run L >>= fun a => (f a).run L := run_bind L p f
theorem run_done (o : Out α) : (Prog.done o).run L = M.lift o := rfl
theorem run_throw (e : Err) : (throw e : Prog α).run L = M.throw e := rfl
theorem run_panic : (panic : Prog α).run L = M.panic := rfl
theorem run_pure (a : α) : (pure a : Prog α).run L = pure a := rfl

theorem run_forTxs {f : Tx → Prog Unit} {g : Tx → M σ Unit} (h : ∀ tx, (f tx).run L = g tx) :
    ∀ txs, (forTxs txs f).run L = Accounts.forTxs txs g
  | [] => rfl
  | tx :: txs => by
    rw [forTxs, Accounts.forTxs, run_bind', h]
    congr
    funext _
    exact run_forTxs h txs

theorem run_pushTx (a : Addr) (ty : UInt8) (tx : Tx) (h : UInt32) (op : AccountOp) :
    (pushTx a ty tx h op).run L = Accounts.pushTx L a ty tx h op := by
  unfold pushTx Accounts.pushTx
  rw [run_bind', run_getAccount]
  congr
  funext acc
  by_cases hc : ty ≠ 0xFF ∧ ty ≠ acc.type
  · rw [if_pos hc, if_pos hc]; rfl
  · rw [if_neg hc, if_neg hc, run_bind', run_done]
    congr
    funext x
    exact run_putAccount _ _

theorem run_createContract (tx : Tx) (h : UInt32) : (createContract E tx h).run L = Accounts.createContract E L tx h := by
  unfold createContract Accounts.createContract
  simp only []
  split
  · rfl
  · rw [run_bind', run_getAccount]
    congr
    funext acc
    split
    · rfl
    · split
      · rw [run_bind', run_done]
        congr; funext x; exact run_putAccount _ _
      · split
        · rw [run_bind', run_done]
          congr; funext x; exact run_putAccount _ _
        · rfl

theorem run_pruneLoop : ∀ (txs : List Tx) (pm : PruneMap), (pruneLoop E txs pm).run L = Accounts.pruneLoop E L txs pm
  | [], pm => rfl
  | tx :: txs, pm => by
    unfold pruneLoop Accounts.pruneLoop
    rw [run_bind', run_getAccount]
    congr
    funext acc
    split
    · exact run_pruneLoop txs pm
    · cases pm.get (tx.getSender E.H).1 with
      | none => rfl
      | some q =>
        simp only []
        split
        · rfl
        · rw [run_bind', run_putAccount]
          congr
          funext _
          exact run_pruneLoop txs _

theorem run_push (block : Block) : (push E block).run L = Accounts.push E L block := by
  unfold push Accounts.push
  cases block.body with
  | none => rfl
  | some body =>
    simp only []
    rw [run_bind']
    unfold pushSenders
    rw [run_forTxs (fun tx => run_pushTx _ _ _ _ _)]
    congr; funext _
    rw [run_bind']
    unfold pushRecipients
    rw [run_forTxs (fun tx => run_pushTx _ _ _ _ _)]
    congr; funext _
    rw [run_bind']
    unfold createContracts
    rw [run_forTxs (g := fun tx => if (tx.content E.H).flags &&& 0x01 ≠ 0 then
      Accounts.createContract E L tx block.height else return ()) (fun tx => by
        split
        · exact run_createContract _ _
        · rfl)]
    congr; funext _
    rw [run_bind', run_pruneLoop]
    unfold pruneAccounts
    rw [M.assoc]
    congr; funext pm
    by_cases h : pm.map (·.1) ≠ []
    · rw [dif_pos h, dif_pos h]; rfl
    · rw [dif_neg h, dif_neg h]
      show Prog.run L (blockReward block.height >>= _) = _
      rw [run_bind', run_blockReward]
      unfold pushInherents
      show _ = (fun s => (L.blockReward block.height >>= _) s)
      congr; funext r
      exact run_pushTx _ _ _ _ _

/-! ## Where it reads and writes -/

theorem within_bind {P : Addr → Prop} {p : Prog α} {f : α → Prog β} (hp : p.Within P) (hf : ∀ a, (f a).Within P) :
    (p >>= f).Within P := hp.bind hf

theorem within_get {P : Addr → Prop} {a : Addr} (h : P a) : (getAccount a).Within P := ⟨h, fun _ => trivial⟩
theorem within_put {P : Addr → Prop} {a : Addr} {x : Option Account} (h : P a) : (putAccount a x).Within P := ⟨h, trivial⟩

theorem within_forTxs {P : Addr → Prop} {f : Tx → Prog Unit} : ∀ txs, (∀ tx ∈ txs, (f tx).Within P) → (forTxs txs f).Within P
  | [], _ => trivial
  | tx :: txs, h => within_bind (h tx (by simp)) fun _ => within_forTxs txs fun t ht => h t (by simp [ht])

theorem within_pushTx {P : Addr → Prop} {a : Addr} (h : P a) (ty : UInt8) (tx : Tx) (ht : UInt32) (op : AccountOp) :
    (pushTx a ty tx ht op).Within P := by
  unfold pushTx
  refine within_bind (within_get h) fun acc => ?_
  split
  · trivial
  · exact within_bind (p := Prog.done _) trivial fun _ => within_put h

theorem within_createContract {P : Addr → Prop} {tx : Tx} (h : P (tx.content E.H).recipient) (ht : UInt32) :
    (createContract E tx ht).Within P := by
  unfold createContract
  simp only []
  split
  · trivial
  · refine within_bind (within_get h) fun acc => ?_
    split
    · trivial
    · split
      · exact within_bind (p := Prog.done _) trivial fun _ => within_put h
      · split
        · exact within_bind (p := Prog.done _) trivial fun _ => within_put h
        · trivial

theorem within_pruneLoop {P : Addr → Prop} : ∀ (txs : List Tx) (pm : PruneMap), (∀ tx ∈ txs, P (tx.getSender E.H).1) →
    (pruneLoop E txs pm).Within P
  | [], pm, _ => trivial
  | tx :: txs, pm, h => by
    unfold pruneLoop
    have h1 := h tx (by simp)
    have h2 : ∀ t ∈ txs, P (t.getSender E.H).1 := fun t ht => h t (by simp [ht])
    refine within_bind (within_get h1) fun acc => ?_
    split
    · exact within_pruneLoop txs pm h2
    · cases pm.get (tx.getSender E.H).1 with
      | none => trivial
      | some q =>
        simp only []
        split
        · trivial
        · exact within_bind (within_put h1) fun _ => within_pruneLoop txs _ h2

theorem within_push (E : Env) (block : Block) : (push E block).Within (Involves E block) := by
  unfold push
  cases hb : block.body with
  | none => trivial
  | some body =>
    have hs : ∀ tx ∈ body.txs, Involves E block (tx.content E.H).sender := fun tx ht =>
      ⟨body, hb, Or.inr ⟨tx, ht, Or.inl (by cases tx <;> rfl)⟩⟩
    have hs' : ∀ tx ∈ body.txs, Involves E block (tx.getSender E.H).1 := fun tx ht => ⟨body, hb, Or.inr ⟨tx, ht, Or.inl rfl⟩⟩
    have hr : ∀ tx ∈ body.txs, Involves E block (tx.content E.H).recipient := fun tx ht =>
      ⟨body, hb, Or.inr ⟨tx, ht, Or.inr (by cases tx <;> rfl)⟩⟩
    refine within_bind (within_forTxs _ fun tx ht => within_pushTx (hs tx ht) _ _ _ _) fun _ => ?_
    refine within_bind (within_forTxs _ fun tx ht => within_pushTx (hr tx ht) _ _ _ _) fun _ => ?_
    refine within_bind (within_forTxs _ fun tx ht => ?_) fun _ => ?_
    · split
      · exact within_createContract (hr tx ht) _
      · trivial
    refine within_bind (within_pruneLoop _ _ hs') fun pm => ?_
    split
    · trivial
    · exact within_bind (p := blockReward _) (fun _ => trivial) fun r => within_pushTx ⟨body, hb, Or.inl rfl⟩ _ _ _ _

/-! ## How many operations -/

/-- The program ends after at most `k` operations, whatever the ledger answers. -/
def Ends : Prog α → Nat → Prop
  | .done _, _ => True
  | .get _ _, 0 => False
  | .get _ f, k + 1 => ∀ x, (f x).Ends k
  | .put _ _ _, 0 => False
  | .put _ _ p, k + 1 => p.Ends k
  | .reward _ _, 0 => False
  | .reward _ f, k + 1 => ∀ r, (f r).Ends k

theorem Ends.mono {p : Prog α} : ∀ {i j : Nat}, p.Ends i → i ≤ j → p.Ends j := by
  induction p with
  | done o => intros; trivial
  | get a f ih =>
    intro i j h hij
    match i, j, h, hij with
    | i + 1, j + 1, h, hij => exact fun x => ih x (h x) (by omega)
  | put a x p ih =>
    intro i j h hij
    match i, j, h, hij with
    | i + 1, j + 1, h, hij => exact ih h (by omega)
  | reward g f ih =>
    intro i j h hij
    match i, j, h, hij with
    | i + 1, j + 1, h, hij => exact fun x => ih x (h x) (by omega)

theorem ends_bind {p : Prog α} {f : α → Prog β} {j : Nat} (hf : ∀ a, (f a).Ends j) : ∀ {i : Nat}, p.Ends i → (p >>= f).Ends (i + j) := by
  rw [bind_def]
  induction p with
  | done o =>
    intro i _
    cases o with
    | ok a => exact (hf a).mono (by omega)
    | err e => trivial
    | panic => trivial
  | get a k ih =>
    intro i h
    match i, h with
    | i + 1, h =>
      rw [show i + 1 + j = (i + j) + 1 by omega]
      exact fun x => ih x (h x)
  | put a x p ih =>
    intro i h
    match i, h with
    | i + 1, h =>
      rw [show i + 1 + j = (i + j) + 1 by omega]
      exact ih h
  | reward g k ih =>
    intro i h
    match i, h with
    | i + 1, h =>
      rw [show i + 1 + j = (i + j) + 1 by omega]
      exact fun x => ih x (h x)

theorem ends_get (a : Addr) : (getAccount a).Ends 1 := fun _ => trivial
theorem ends_put (a : Addr) (x : Option Account) : (putAccount a x).Ends 1 := trivial

theorem ends_forTxs {f : Tx → Prog Unit} {k : Nat} (h : ∀ tx, (f tx).Ends k) : ∀ txs, (forTxs txs f).Ends (k * txs.length)
  | [] => trivial
  | tx :: txs => by
    rw [List.length_cons, Nat.mul_succ, Nat.add_comm]
    exact ends_bind (fun _ => ends_forTxs h txs) (h tx)

theorem ends_pushTx (a : Addr) (ty : UInt8) (tx : Tx) (ht : UInt32) (op : AccountOp) : (pushTx a ty tx ht op).Ends 2 := by
  unfold pushTx
  refine ends_bind (i := 1) (j := 1) (fun acc => ?_) (ends_get a)
  split
  · trivial
  · exact ends_bind (p := Prog.done _) (i := 0) (fun _ => ends_put _ _) trivial

theorem ends_createContract (tx : Tx) (ht : UInt32) : (createContract E tx ht).Ends 2 := by
  unfold createContract
  simp only []
  split
  · trivial
  · refine ends_bind (i := 1) (j := 1) (fun acc => ?_) (ends_get _)
    split
    · trivial
    · split
      · exact ends_bind (p := Prog.done _) (i := 0) (fun _ => ends_put _ _) trivial
      · split
        · exact ends_bind (p := Prog.done _) (i := 0) (fun _ => ends_put _ _) trivial
        · trivial

theorem ends_pruneLoop : ∀ (txs : List Tx) (pm : PruneMap), (pruneLoop E txs pm).Ends (2 * txs.length)
  | [], pm => trivial
  | tx :: txs, pm => by
    unfold pruneLoop
    rw [List.length_cons, Nat.mul_succ, show 2 * txs.length + 2 = 1 + (1 + 2 * txs.length) by omega]
    refine ends_bind (fun acc => ?_) (ends_get _)
    split
    · exact (ends_pruneLoop txs pm).mono (by omega)
    · cases pm.get (tx.getSender E.H).1 with
      | none => trivial
      | some q =>
        simp only []
        split
        · trivial
        · exact ends_bind (fun _ => ends_pruneLoop txs _) (ends_put _ _)

theorem ends_push (block : Block) (body : Body) (hb : block.body = some body) : (push E block).Ends (8 * body.txs.length + 3) := by
  unfold push
  rw [hb]
  simp only []
  rw [show 8 * body.txs.length + 3 = 2 * body.txs.length + (2 * body.txs.length + (2 * body.txs.length + (2 * body.txs.length + (1 + 2)))) by omega]
  refine ends_bind (fun _ => ?_) (ends_forTxs (fun tx => ends_pushTx _ _ _ _ _) _)
  refine ends_bind (fun _ => ?_) (ends_forTxs (fun tx => ends_pushTx _ _ _ _ _) _)
  refine ends_bind (fun _ => ?_) (ends_forTxs (fun tx => ?_) _)
  · refine ends_bind (fun pm => ?_) (ends_pruneLoop _ _)
    split
    · trivial
    · exact ends_bind (p := blockReward _) (i := 1) (fun r => ends_pushTx _ _ _ _ _) (fun _ => trivial)
  · split
    · exact ends_createContract _ _
    · trivial

/-- One operation less. -/
theorem Ends.step {p : Prog α} {k : Nat} (h : p.Ends (k + 1)) (s : σ) : (p.step L s).1.Ends k := by
  cases p with
  | done o => trivial
  | get a f =>
    show (match L.getAccount a s with | (.ok x, s) => (f x, s) | (.err e, s) => (.done (.err e), s) | (.panic, s) => (.done .panic, s) : Prog α × σ).1.Ends k
    rcases L.getAccount a s with ⟨o, s1⟩
    cases o with
    | ok x => exact h x
    | err e => trivial
    | panic => trivial
  | put a x p =>
    show (match L.putAccount a x s with | (.ok _, s) => (p, s) | (.err e, s) => (.done (.err e), s) | (.panic, s) => (.done .panic, s) : Prog α × σ).1.Ends k
    rcases L.putAccount a x s with ⟨o, s1⟩
    cases o with
    | ok x => exact h
    | err e => trivial
    | panic => trivial
  | reward g f =>
    show (match L.blockReward g s with | (.ok x, s) => (f x, s) | (.err e, s) => (.done (.err e), s) | (.panic, s) => (.done .panic, s) : Prog α × σ).1.Ends k
    rcases L.blockReward g s with ⟨o, s1⟩
    cases o with
    | ok x => exact h x
    | err e => trivial
    | panic => trivial

/-- A step does not change where the program leads. -/
theorem step_run (p : Prog α) (s : σ) : (p.step L s).1.run L (p.step L s).2 = p.run L s := by
  cases p with
  | done o => rfl
  | get a f =>
    simp only [step, run, M.bind_eq]
    rcases L.getAccount a s with ⟨o, s1⟩
    cases o <;> rfl
  | put a x p =>
    simp only [step, run, M.bind_eq]
    rcases L.putAccount a x s with ⟨o, s1⟩
    cases o <;> rfl
  | reward g f =>
    simp only [step, run, M.bind_eq]
    rcases L.blockReward g s with ⟨o, s1⟩
    cases o <;> rfl

theorem step_within {P : Addr → Prop} {p : Prog α} (h : p.Within P) (s : σ) : (p.step L s).1.Within P := by
  cases p with
  | done o => trivial
  | get a f =>
    simp only [step]
    rcases L.getAccount a s with ⟨o, s1⟩
    cases o with
    | ok x => exact h.2 x
    | err e => trivial
    | panic => trivial
  | put a x p =>
    simp only [step]
    rcases L.putAccount a x s with ⟨o, s1⟩
    cases o with
    | ok x => exact h.2
    | err e => trivial
    | panic => trivial
  | reward g f =>
    simp only [step]
    rcases L.blockReward g s with ⟨o, s1⟩
    cases o with
    | ok x => exact h x
    | err e => trivial
    | panic => trivial

/-- A step on a node is the step on the map of its accounts. -/
theorem step_sim {H : Bytes → Hash32} (p : Prog α) {n : Node} {m : AMap} (h : Rel H n m) :
    (p.step (nodeLedger H) n).1 = (p.step mapLedger m).1 ∧ Rel H (p.step (nodeLedger H) n).2 (p.step mapLedger m).2 := by
  cases p with
  | done o => exact ⟨rfl, h⟩
  | get a f =>
    obtain ⟨h1, h2⟩ := (simLedger H).get a n m h
    simp only [step]
    revert h1 h2
    rcases (nodeLedger H).getAccount a n with ⟨o, n1⟩
    rcases mapLedger.getAccount a m with ⟨o', m1⟩
    intro h1 h2
    simp only [] at h1 h2
    subst h1
    cases o <;> exact ⟨rfl, h2⟩
  | put a x p =>
    obtain ⟨h1, h2⟩ := (simLedger H).put a x n m h
    simp only [step]
    revert h1 h2
    rcases (nodeLedger H).putAccount a x n with ⟨o, n1⟩
    rcases mapLedger.putAccount a x m with ⟨o', m1⟩
    intro h1 h2
    simp only [] at h1 h2
    subst h1
    cases o <;> exact ⟨rfl, h2⟩
  | reward g f =>
    obtain ⟨h1, h2⟩ := (simLedger H).reward g n m h
    simp only [step]
    revert h1 h2
    rcases (nodeLedger H).blockReward g n with ⟨o, n1⟩
    rcases mapLedger.blockReward g m with ⟨o', m1⟩
    intro h1 h2
    simp only [] at h1 h2
    subst h1
    cases o <;> exact ⟨rfl, h2⟩

theorem interleave_sim {H : Bytes → Hash32} : ∀ (s : List Nat) (t : Pool) {n : Node} {m : AMap}, Rel H n m →
    (interleave (nodeLedger H) s t n).1 = (interleave mapLedger s t m).1 ∧
    Rel H (interleave (nodeLedger H) s t n).2 (interleave mapLedger s t m).2
  | [], t, n, m, h => ⟨rfl, h⟩
  | i :: s, t, n, m, h => by
    obtain ⟨h1, h2⟩ := step_sim (t i) h
    simp only [interleave]
    rw [h1]
    exact interleave_sim s _ h2

/-- A step takes a reachable node to a reachable node. -/
theorem step_reach {E : Env} (p : Prog α) {n : Node} (h : Reach E n) : Reach E (p.step (nodeLedger E.H) n).2 := by
  cases p with
  | done o => exact h
  | get a f =>
    have hg : (nodeLedger E.H).getAccount a n = _ := h.acc.getAccount a
    simp only [step, hg]
    exact h
  | put a x p =>
    have hr : Reach E (Node.putAccount E.H a x n).2 := .put a x h
    have e : (nodeLedger E.H).putAccount a x n = Node.putAccount E.H a x n := rfl
    simp only [step, e]
    revert hr
    rcases Node.putAccount E.H a x n with ⟨o, n1⟩
    intro hr
    cases o <;> exact hr
  | reward g f =>
    have e : (nodeLedger E.H).blockReward g n = Node.blockReward g n := rfl
    have hs := ((simLedger E.H).reward g n _ h.acc).2
    have ht : (Node.blockReward g n).2.tree = n.tree := by
      unfold Node.blockReward
      rcases Policy.blockReward n.cache g with ⟨r, c⟩ | e | _ <;> rfl
    have hr : Reach E (Node.blockReward g n).2 := by
      have := Reach.policy (c := (Node.blockReward g n).2.cache) h hs.cache
      rw [← ht] at this
      exact this
    simp only [step, e]
    revert hr
    rcases Node.blockReward g n with ⟨o, n1⟩
    intro hr
    cases o <;> exact hr

theorem interleave_reach {E : Env} : ∀ (s : List Nat) (t : Pool) {n : Node}, Reach E n →
    Reach E (interleave (nodeLedger E.H) s t n).2
  | [], _, _, h => h
  | i :: s, t, _, h => interleave_reach s _ (step_reach (t i) h)

theorem interleave_ends : ∀ (s : List Nat) (t : Pool) (x : σ) (i k : Nat), (t i).Ends k → k ≤ s.count i →
    ∃ o, (interleave L s t x).1 i = .done o
  | [], t, x, i, k, h, hk => by
    simp only [List.count_nil, Nat.le_zero] at hk
    subst hk
    show ∃ o, t i = .done o
    cases ht : t i with
    | done o => exact ⟨o, rfl⟩
    | get a f => rw [ht] at h; exact h.elim
    | put a x p => rw [ht] at h; exact h.elim
    | reward g f => rw [ht] at h; exact h.elim
  | j :: s, t, x, i, k, h, hk => by
    simp only [interleave]
    by_cases hij : j = i
    · subst hij
      rw [List.count_cons_self] at hk
      refine interleave_ends s _ _ j (k - 1) ?_ (by omega)
      rw [if_pos rfl]
      cases k with
      | zero => exact ((h.mono (Nat.le_succ 0)).step x).mono (by omega)
      | succ k => exact h.step x
    · rw [List.count_cons_of_ne hij] at hk
      refine interleave_ends s _ _ i k ?_ hk
      rw [if_neg (Ne.symm hij)]
      exact h

end Prog

variable {E : Env} {n n' : Node}

/-! ## The theorems -/

/-- C140. A single goroutine, executed without interruption, is `Push`. -/
theorem C140_alone (block : Nat → Block) (i k : Nat) (n : Node) (o : Out Unit)
    (h : (pushAll E block (List.replicate k i) n).1 i = .done o) :
    Push E (block i) n = (o, (pushAll E block (List.replicate k i) n).2) := by
  have key : ∀ (k : Nat) (t : Prog.Pool) (n : Node),
      ((Prog.interleave (nodeLedger E.H) (List.replicate k i) t n).1 i).run (nodeLedger E.H)
        (Prog.interleave (nodeLedger E.H) (List.replicate k i) t n).2 = (t i).run (nodeLedger E.H) n := by
    intro k
    induction k with
    | zero => intro t n; rfl
    | succ k ih =>
      intro t n
      rw [List.replicate_succ]
      simp only [Prog.interleave]
      rw [ih, if_pos rfl, Prog.step_run]
  have := key k (fun i => Prog.push E (block i)) n
  unfold pushAll at h
  rw [h, Prog.run_push] at this
  exact this.symm

/-- C140. Every goroutine returns: after 8 operations per transaction and 3 more. -/
theorem C140_returns (block : Nat → Block) (schedule : List Nat) (n : Node) (i : Nat) (body : Body)
    (hb : (block i).body = some body) (hs : 8 * body.txs.length + 3 ≤ schedule.count i) :
    ∃ o, (pushAll E block schedule n).1 i = .done o :=
  Prog.interleave_ends schedule _ n i _ (Prog.ends_push (block i) body hb) hs

/-- C140. Whatever the goroutines do to each other, the tree stays a tree: the node is again one of those the other theorems are
about, and nothing is written outside the accounts the blocks name. -/
theorem C140_intact (hn : Reach E n) (block : Nat → Block) (schedule : List Nat) : Reach E (pushAll E block schedule n).2 :=
  Prog.interleave_reach schedule _ hn

theorem Prog.step_frame {α : Type} {P : Addr → Prop} {p : Prog α} (h : p.Within P) (m : AMap) (a : Addr) (ha : ¬ P a) :
    (p.step mapLedger m).2 a = m a := by
  cases p with
  | done o => rfl
  | get b f => rfl
  | put b x p =>
    show AMap.set m b (x.getD initialAccount) a = m a
    refine AMap.set_ne _ _ ?_
    rintro rfl
    exact ha h.1
  | reward g f =>
    simp only [Prog.step]
    by_cases hg : g = 0
    · have hb : mapLedger.blockReward g m = (.panic, m) := if_pos hg
      rw [hb]
    · have hb : mapLedger.blockReward g m = (.ok (rewardAt g), m) := if_neg hg
      rw [hb]

/-- Goroutines whose blocks have no account in common, on a map. -/
theorem disjoint_map (block : Nat → Block) (hd : ∀ i j a, i ≠ j → ¬ (Involves E (block i) a ∧ Involves E (block j) a)) (m0 : AMap) :
    ∀ (s : List Nat) (t : Prog.Pool) (m : AMap),
      (∀ i, (t i).Within (Involves E (block i)) ∧ ((t i).run mapLedger m).1 = (push E mapLedger (block i) m0).1 ∧
        ∀ a, Involves E (block i) a → ((t i).run mapLedger m).2 a = (push E mapLedger (block i) m0).2 a) →
      (∀ a, (∀ i, ¬ Involves E (block i) a) → m a = m0 a) →
      (∀ i, ((Prog.interleave mapLedger s t m).1 i).Within (Involves E (block i)) ∧
        (((Prog.interleave mapLedger s t m).1 i).run mapLedger (Prog.interleave mapLedger s t m).2).1 =
          (push E mapLedger (block i) m0).1 ∧
        ∀ a, Involves E (block i) a → (((Prog.interleave mapLedger s t m).1 i).run mapLedger (Prog.interleave mapLedger s t m).2).2 a =
          (push E mapLedger (block i) m0).2 a) ∧
      (∀ a, (∀ i, ¬ Involves E (block i) a) → (Prog.interleave mapLedger s t m).2 a = m0 a) := by
  intro s
  induction s with
  | nil => intro t m h1 h2; exact ⟨h1, h2⟩
  | cons j s ih =>
    intro t m h1 h2
    simp only [Prog.interleave]
    have hframe := Prog.step_frame (h1 j).1 m
    refine ih _ _ (fun i => ?_) (fun a ha => (hframe a (ha j)).trans (h2 a ha))
    by_cases hij : i = j
    · subst hij
      rw [if_pos rfl]
      refine ⟨Prog.step_within (h1 i).1 m, ?_⟩
      rw [Prog.step_run]
      exact (h1 i).2
    · rw [if_neg hij]
      obtain ⟨w, r1, r2⟩ := h1 i
      obtain ⟨x1, x2, _⟩ := Prog.within_run w ((t j).step mapLedger m).2 m
        (fun a ha => hframe a fun hj => hd i j a hij ⟨ha, hj⟩)
      exact ⟨w, x1.trans r1, fun a ha => (x2 a ha).trans (r2 a ha)⟩

/-- C140, for blocks that have no account in common: in any schedule, a goroutine that has returned has the result it would have
had alone, and its accounts are what they would be if it alone had pushed, wherever the others are; what no block names is
untouched. -/
theorem C140_disjoint_partial (hn : Reach E n) (block : Nat → Block)
    (hd : ∀ i j a, i ≠ j → ¬ (Involves E (block i) a ∧ Involves E (block j) a)) (schedule : List Nat) :
    (∀ i o, (pushAll E block schedule n).1 i = .done o → o = (Push E (block i) n).1 ∧
      ∀ a, Involves E (block i) a →
        (Node.getAccount a (pushAll E block schedule n).2).1 = (Node.getAccount a (Push E (block i) n).2).1) ∧
    (∀ a, (∀ i, ¬ Involves E (block i) a) →
      (Node.getAccount a (pushAll E block schedule n).2).1 = (Node.getAccount a n).1) := by
  obtain ⟨e1, e2⟩ := Prog.interleave_sim schedule (fun i => Prog.push E (block i)) hn.acc
  obtain ⟨f1, f2⟩ := disjoint_map block hd (accountOf n) schedule (fun i => Prog.push E (block i)) (accountOf n)
    (fun i => ⟨Prog.within_push E (block i), by rw [Prog.run_push], fun a _ => by rw [Prog.run_push]⟩) (fun _ _ => rfl)
  have q := hn.acc
  unfold pushAll
  constructor
  · intro i o ho
    rw [e1] at ho
    obtain ⟨-, g1, g2⟩ := f1 i
    rw [ho] at g1 g2
    have p1 := q.push (block i)
    refine ⟨g1.trans p1.1.symm, fun a ha => ?_⟩
    rw [e2.getAccount, p1.2.getAccount, ← g2 a ha]
    rfl
  · intro a ha
    rw [e2.getAccount, q.getAccount, f2 a ha]

/-- Accounts after blocks that have no account in common, one after the other. -/
theorem serial_accounts : ∀ (bs : List Block) {n : Node}, Reach E n →
    (bs.Pairwise fun b b' => ∀ a, ¬ (Involves E b a ∧ Involves E b' a)) → ∀ a,
    Reach E (bs.foldl (fun n b => (Push E b n).2) n) ∧
    (∀ b ∈ bs, Involves E b a → accountOf (bs.foldl (fun n b => (Push E b n).2) n) a = accountOf (Push E b n).2 a) ∧
    ((∀ b ∈ bs, ¬ Involves E b a) → accountOf (bs.foldl (fun n b => (Push E b n).2) n) a = accountOf n a) := by
  intro bs
  induction bs with
  | nil => intro n hn _ a; exact ⟨hn, fun b hb => absurd hb (by simp), fun _ => rfl⟩
  | cons c bs ih =>
    intro n hn hp a
    obtain ⟨hc, hp⟩ := List.pairwise_cons.mp hp
    obtain ⟨i1, i2, i3⟩ := ih (hn.push c) hp a
    have frame : ∀ a, ¬ Involves E c a → accountOf (Push E c n).2 a = accountOf n a := by
      intro a ha
      have := (C130_local hn hn c (fun _ _ => rfl)).2.2 a ha
      unfold accountOf
      rw [this]
    rw [List.foldl_cons]
    refine ⟨i1, ?_, ?_⟩
    · intro b hb ha
      rcases List.mem_cons.mp hb with rfl | hb
      · exact i3 fun b' hb' h' => hc b' hb' a ⟨ha, h'⟩
      · rw [i2 b hb ha]
        have := (C130_local (hn.push c) hn b (fun x hx => by
          rw [(hn.push c).acc.getAccount, hn.acc.getAccount, frame x fun hcx => hc b hb x ⟨hcx, hx⟩])).2.1 a ha
        unfold accountOf
        rw [this]
    · intro h
      rw [i3 fun b hb => h b (by simp [hb]), frame a (h c (by simp))]

/-- C140, for blocks that have no account in common: when all goroutines have returned, accounts and tree hash are those of
pushing the blocks one after the other, in any order. -/
theorem C140_serial_partial (hn : Reach E n) (bs : List Block)
    (hd : bs.Pairwise fun b b' => ∀ a, ¬ (Involves E b a ∧ Involves E b' a)) (schedule : List Nat) (hs : ∀ i ∈ schedule, i < bs.length)
    (block : Nat → Block) (hb : ∀ i (h : i < bs.length), block i = bs[i])
    (hr : ∀ i < bs.length, ∃ o, (pushAll E block schedule n).1 i = .done o) (order : List Block) (ho : order.Perm bs) :
    (∀ a, (Node.getAccount a (pushAll E block schedule n).2).1 =
      (Node.getAccount a (order.foldl (fun n b => (Push E b n).2) n)).1) ∧
    (Node.hash E.H (pushAll E block schedule n).2).1 = (Node.hash E.H (order.foldl (fun n b => (Push E b n).2) n)).1 := by
  -- goroutines that are never scheduled may as well have a block without transactions
  let block' : Nat → Block := fun i => if h : i < bs.length then bs[i] else ⟨0, BArr.zero 32, none⟩
  have same : ∀ (s : List Nat) (t t' : Prog.Pool) (n : Node), (∀ i ∈ s, i < bs.length) → (∀ i < bs.length, t i = t' i) →
      (Prog.interleave (nodeLedger E.H) s t n).2 = (Prog.interleave (nodeLedger E.H) s t' n).2 ∧
      ∀ i < bs.length, (Prog.interleave (nodeLedger E.H) s t n).1 i = (Prog.interleave (nodeLedger E.H) s t' n).1 i := by
    intro s
    induction s with
    | nil => intro t t' n _ h; exact ⟨rfl, h⟩
    | cons j s ih =>
      intro t t' n hs h
      simp only [Prog.interleave]
      rw [← h j (hs j (by simp))]
      refine ih _ _ _ (fun i hi => hs i (by simp [hi])) fun i hi => ?_
      split
      · rfl
      · exact h i hi
  obtain ⟨s1, s2⟩ := same schedule (fun i => Prog.push E (block i)) (fun i => Prog.push E (block' i)) n hs (fun i hi => by
    show Prog.push E (block i) = Prog.push E (block' i)
    rw [hb i hi, show block' i = bs[i] from dif_pos hi])
  have hd' : ∀ i j a, i ≠ j → ¬ (Involves E (block' i) a ∧ Involves E (block' j) a) := by
    have none : ∀ i a, ¬ i < bs.length → ¬ Involves E (block' i) a := by
      rintro i a hi ⟨body, hb, -⟩
      rw [show block' i = ⟨0, BArr.zero 32, none⟩ from dif_neg hi] at hb
      cases hb
    rintro i j a hij ⟨h1, h2⟩
    by_cases hi : i < bs.length
    · by_cases hj : j < bs.length
      · rw [show block' i = bs[i] from dif_pos hi] at h1
        rw [show block' j = bs[j] from dif_pos hj] at h2
        rcases Nat.lt_or_gt_of_ne hij with h | h
        · exact List.pairwise_iff_getElem.mp hd i j hi hj h a ⟨h1, h2⟩
        · exact List.pairwise_iff_getElem.mp hd j i hj hi h a ⟨h2, h1⟩
      · exact none j a hj h2
    · exact none i a hi h1
  obtain ⟨d1, d2⟩ := C140_disjoint_partial hn block' hd' schedule
  have hord : order.Pairwise fun b b' => ∀ a, ¬ (Involves E b a ∧ Involves E b' a) :=
    (ho.pairwise_iff (fun {b b'} h a hh => h a ⟨hh.2, hh.1⟩)).mpr hd
  have hser := serial_accounts order hn hord
  have hreach : Reach E (pushAll E block schedule n).2 := C140_intact hn block schedule
  have hreach' := (hser (BArr.zero 20)).1
  have key : accountOf (pushAll E block schedule n).2 = accountOf (order.foldl (fun n b => (Push E b n).2) n) := by
    funext a
    have e : (pushAll E block schedule n).2 = (pushAll E block' schedule n).2 := s1
    by_cases h : ∃ b ∈ bs, Involves E b a
    · obtain ⟨b, hbm, hba⟩ := h
      obtain ⟨i, hi, rfl⟩ := List.getElem_of_mem hbm
      have hbi : block' i = bs[i] := dif_pos hi
      obtain ⟨o, hodone⟩ := hr i hi
      have h3 := (d1 i o ((s2 i hi).symm.trans hodone)).2 a (by rw [hbi]; exact hba)
      rw [hbi] at h3
      rw [(hser a).2.1 bs[i] (ho.mem_iff.mpr hbm) hba, e]
      unfold accountOf
      rw [h3]
    · have hno : ∀ i, ¬ Involves E (block' i) a := by
        intro i hi
        by_cases hl : i < bs.length
        · rw [show block' i = bs[i] from dif_pos hl] at hi
          exact h ⟨_, List.getElem_mem hl, hi⟩
        · obtain ⟨body, hb, -⟩ := hi
          rw [show block' i = ⟨0, BArr.zero 32, none⟩ from dif_neg hl] at hb
          cases hb
      rw [(hser a).2.2 fun b hbm hba => h ⟨b, ho.mem_iff.mp hbm, hba⟩, e]
      have := d2 a hno
      unfold accountOf
      rw [this]
  refine ⟨fun a => ?_, ?_⟩
  · rw [hreach.acc.getAccount, hreach'.acc.getAccount, key]
  · rw [hreach.acc.hash, hreach'.acc.hash, key]

/-! ## Blocks that do have accounts in common -/

/-- Left alone, a goroutine does what is left of its program. -/
theorem Prog.finish {σ : Type} {L : Ledger σ} (p : Prog Unit) : ∀ s : σ, ∃ k, ∀ (t : Pool) (i : Nat), t i = p →
    interleave L (List.replicate k i) t s = (fun j => if j = i then .done (p.run L s).1 else t j, (p.run L s).2) := by
  have one : ∀ (p q : Prog Unit) (s s' : σ) (k : Nat), p.step L s = (q, s') → q.run L s' = p.run L s →
      (∀ (t : Pool) (i : Nat), t i = q →
        interleave L (List.replicate k i) t s' = (fun j => if j = i then .done (q.run L s').1 else t j, (q.run L s').2)) →
      ∀ (t : Pool) (i : Nat), t i = p →
        interleave L (List.replicate (k + 1) i) t s = (fun j => if j = i then .done (p.run L s).1 else t j, (p.run L s).2) := by
    intro p q s s' k hst hrun ih t i hi
    rw [List.replicate_succ]
    simp only [interleave]
    rw [hi, hst]
    simp only []
    rw [ih _ i (if_pos rfl), hrun]
    congr 1
    funext j
    split <;> rfl
  have zero : ∀ (o : Out Unit) (s : σ) (t : Pool) (i : Nat), t i = .done o →
      interleave L (List.replicate 0 i) t s = (fun j => if j = i then .done ((Prog.done o).run L s).1 else t j, ((Prog.done o).run L s).2) := by
    intro o s t i hi
    show (t, s) = (_, s)
    congr 1
    funext j
    split
    · rename_i h; rw [h, hi]; rfl
    · rfl
  induction p with
  | done o => intro s; exact ⟨0, zero o s⟩
  | get a f ih =>
    intro s
    rcases hg : L.getAccount a s with ⟨o, s1⟩
    have hrun : ∀ q s', (Prog.get a f).step L s = (q, s') → q.run L s' = (Prog.get a f).run L s := by
      intro q s' h
      have := step_run (L := L) (Prog.get a f) s
      rw [h] at this
      exact this
    cases o with
    | ok x =>
      have hst : (Prog.get a f).step L s = (f x, s1) := by simp only [step, hg]
      obtain ⟨k, hk⟩ := ih x s1
      exact ⟨k + 1, one _ _ _ _ _ hst (hrun _ _ hst) hk⟩
    | err e =>
      have hst : (Prog.get a f).step L s = (.done (.err e), s1) := by simp only [step, hg]
      exact ⟨0 + 1, one _ _ _ _ _ hst (hrun _ _ hst) (zero _ _)⟩
    | panic =>
      have hst : (Prog.get a f).step L s = (.done .panic, s1) := by simp only [step, hg]
      exact ⟨0 + 1, one _ _ _ _ _ hst (hrun _ _ hst) (zero _ _)⟩
  | put a x p ih =>
    intro s
    rcases hg : L.putAccount a x s with ⟨o, s1⟩
    have hrun : ∀ q s', (Prog.put a x p).step L s = (q, s') → q.run L s' = (Prog.put a x p).run L s := by
      intro q s' h
      have := step_run (L := L) (Prog.put a x p) s
      rw [h] at this
      exact this
    cases o with
    | ok u =>
      have hst : (Prog.put a x p).step L s = (p, s1) := by simp only [step, hg]
      obtain ⟨k, hk⟩ := ih s1
      exact ⟨k + 1, one _ _ _ _ _ hst (hrun _ _ hst) hk⟩
    | err e =>
      have hst : (Prog.put a x p).step L s = (.done (.err e), s1) := by simp only [step, hg]
      exact ⟨0 + 1, one _ _ _ _ _ hst (hrun _ _ hst) (zero _ _)⟩
    | panic =>
      have hst : (Prog.put a x p).step L s = (.done .panic, s1) := by simp only [step, hg]
      exact ⟨0 + 1, one _ _ _ _ _ hst (hrun _ _ hst) (zero _ _)⟩
  | reward g f ih =>
    intro s
    rcases hg : L.blockReward g s with ⟨o, s1⟩
    have hrun : ∀ q s', (Prog.reward g f).step L s = (q, s') → q.run L s' = (Prog.reward g f).run L s := by
      intro q s' h
      have := step_run (L := L) (Prog.reward g f) s
      rw [h] at this
      exact this
    cases o with
    | ok x =>
      have hst : (Prog.reward g f).step L s = (f x, s1) := by simp only [step, hg]
      obtain ⟨k, hk⟩ := ih x s1
      exact ⟨k + 1, one _ _ _ _ _ hst (hrun _ _ hst) hk⟩
    | err e =>
      have hst : (Prog.reward g f).step L s = (.done (.err e), s1) := by simp only [step, hg]
      exact ⟨0 + 1, one _ _ _ _ _ hst (hrun _ _ hst) (zero _ _)⟩
    | panic =>
      have hst : (Prog.reward g f).step L s = (.done .panic, s1) := by simp only [step, hg]
      exact ⟨0 + 1, one _ _ _ _ _ hst (hrun _ _ hst) (zero _ _)⟩

/-- The program reads `a`, and if it finds `old` there its next operation is to write `x`. -/
def Prog.Replaces {α : Type} (a : Addr) (old x : Account) (p : Prog α) : Prop :=
  ∃ k rest, p = .get a k ∧ k old = .put a (some x) rest

theorem Prog.Replaces.bind {α β : Type} {a : Addr} {old x : Account} {p : Prog α} (h : p.Replaces a old x) (f : α → Prog β) :
    (p >>= f).Replaces a old x := by
  obtain ⟨k, rest, rfl, hk⟩ := h
  refine ⟨fun y => (k y).bind f, rest.bind f, rfl, ?_⟩
  simp only [hk]
  rfl

/-- The first two operations of a push whose first payment is in order. -/
theorem push_first {block : Block} {body : Body} (hb : block.body = some body) {tx : Tx} {txs : List Tx} (ht : body.txs = tx :: txs)
    {old x : Account} (hty : (tx.content E.H).senderType = 0xFF ∨ (tx.content E.H).senderType = old.type)
    (hx : applyOutgoing E old tx block.height = .ok x) :
    (Prog.push E block).Replaces (tx.content E.H).sender old x := by
  have hc : ¬ ((tx.content E.H).senderType ≠ 0xFF ∧ (tx.content E.H).senderType ≠ old.type) := by
    rintro ⟨h1, h2⟩
    rcases hty with h | h
    · exact h1 h
    · exact h2 h
  have h1 : (Prog.pushTx (tx.content E.H).sender (tx.content E.H).senderType tx block.height (applyOutgoing E)).Replaces
      (tx.content E.H).sender old x := by
    refine ⟨fun acc => if (tx.content E.H).senderType ≠ 0xFF ∧ (tx.content E.H).senderType ≠ acc.type then
      Prog.throw (.typeMismatch (tx.content E.H).senderType acc.type) else _, .done (.ok ()), rfl, ?_⟩
    simp only []
    rw [if_neg hc, hx]
    rfl
  unfold Prog.push
  rw [hb]
  simp only [ht]
  exact (h1.bind fun _ => _).bind _

theorem stale_map {b1 b2 : Block} {body : Body} (hb : b1.body = some body) {tx : Tx} {txs : List Tx} (ht : body.txs = tx :: txs)
    {m : AMap} {x : Account} (hty : (tx.content E.H).senderType = 0xFF ∨ (tx.content E.H).senderType = (m (tx.content E.H).sender).type)
    (hx : applyOutgoing E (m (tx.content E.H).sender) tx b1.height = .ok x) :
    ∃ s, ∀ t : Prog.Pool, t 0 = Prog.push E b1 → t 1 = Prog.push E b2 →
      let m2 := (push E mapLedger b2 m).2
      let r := push E mapLedger b1 (m2.set (tx.content E.H).sender (m (tx.content E.H).sender))
      (Prog.interleave mapLedger s t m).1 0 = .done r.1 ∧ (Prog.interleave mapLedger s t m).1 1 = .done (push E mapLedger b2 m).1 ∧
      (Prog.interleave mapLedger s t m).2 = r.2 := by
  obtain ⟨k, rest, hp, hk⟩ := push_first hb ht hty hx
  obtain ⟨j2, h2⟩ := Prog.finish (L := mapLedger) (Prog.push E b2) m
  obtain ⟨j1, h1⟩ := Prog.finish (L := mapLedger) (k (m (tx.content E.H).sender)) (push E mapLedger b2 m).2
  refine ⟨0 :: (List.replicate j2 1 ++ List.replicate j1 0), fun t t0 t1 => ?_⟩
  have app : ∀ (s s' : List Nat) (t : Prog.Pool) (m : AMap), Prog.interleave mapLedger (s ++ s') t m =
      Prog.interleave mapLedger s' (Prog.interleave mapLedger s t m).1 (Prog.interleave mapLedger s t m).2 := by
    intro s
    induction s with
    | nil => intros; rfl
    | cons i s ih => intro s' t m; simp only [List.cons_append, Prog.interleave]; exact ih _ _ _
  have hstep : (t 0).step mapLedger m = (k (m (tx.content E.H).sender), m) := by rw [t0, hp]; rfl
  have hrun : (k (m (tx.content E.H).sender)).run mapLedger (push E mapLedger b2 m).2 =
      push E mapLedger b1 ((push E mapLedger b2 m).2.set (tx.content E.H).sender (m (tx.content E.H).sender)) := by
    rw [← Prog.run_push (E := E) b1, hp, hk]
    show rest.run mapLedger (AMap.set _ _ _) = (k (AMap.set _ _ _ (tx.content E.H).sender)).run mapLedger (AMap.set _ _ _)
    rw [AMap.set_same, hk]
    show _ = rest.run mapLedger (AMap.set _ _ _)
    congr 1
    funext d
    unfold AMap.set
    split <;> rfl
  simp only [Prog.interleave]
  rw [hstep, app, h2 _ 1 (by simpa using t1)]
  simp only [Prog.run_push]
  rw [h1 _ 0 (by simp)]
  simp only [hrun]
  refine ⟨by simp, by simp, ?_⟩
  first | trivial | rfl

/-- C140. What can happen otherwise: the first payment of one block is taken from the balance the account had before the other
block, whatever that did to it. For every block whose first payment is in order by itself, and every other block, there is a
schedule in which both goroutines return: the other one with its result, this one with the result - and leaving the accounts -
as if the other block had been pushed first and then the old account had been put back. -/
theorem C140_stale (hn : Reach E n) (b1 b2 : Block) (body : Body) (hb : b1.body = some body) (tx : Tx) (txs : List Tx)
    (ht : body.txs = tx :: txs) (a : Addr) (ha : (tx.getSender E.H).1 = a)
    (hty : (tx.getSender E.H).2 = 0xFF ∨ (tx.getSender E.H).2 = (accountOf n a).type) (x : Account)
    (hx : applyOutgoing E (accountOf n a) tx b1.height = .ok x) :
    ∃ schedule,
      let r := pushAll E (fun i => if i = 0 then b1 else b2) schedule n
      let n2 := (Node.putAccount E.H a (some (accountOf n a)) (Push E b2 n).2).2
      r.1 0 = .done (Push E b1 n2).1 ∧ r.1 1 = .done (Push E b2 n).1 ∧ accountOf r.2 = accountOf (Push E b1 n2).2 := by
  have hs : (tx.content E.H).sender = a := by rw [content_sender]; exact ha
  have hst : (tx.content E.H).senderType = (tx.getSender E.H).2 := content_senderType ..
  obtain ⟨s, h⟩ := stale_map (E := E) (b1 := b1) (b2 := b2) hb ht (m := accountOf n) (x := x)
    (by rw [hst, hs]; exact hty) (by rw [hs]; exact hx)
  obtain ⟨h1, h2, h3⟩ := h (fun i => Prog.push E (if i = 0 then b1 else b2)) rfl rfl
  obtain ⟨e1, e2⟩ := Prog.interleave_sim s (fun i => Prog.push E (if i = 0 then b1 else b2)) hn.acc
  have p2 := hn.push_eq b2
  have hacc : accountOf (Node.putAccount E.H a (some (accountOf n a)) (Push E b2 n).2).2 =
      (push E mapLedger b2 (accountOf n)).2.set a (accountOf n a) := by
    rw [accountOf_put (hn.push b2), p2.2]
  have p1 := (Reach.put a (some (accountOf n a)) (hn.push b2)).push_eq b1
  refine ⟨s, ?_⟩
  simp only [pushAll]
  rw [e1, p1.1, p1.2, hacc, p2.1, e2.accountOf]
  rw [hs] at h1 h3
  exact ⟨h1, h2, h3⟩

/-- **C140 is violated**: two blocks that spend the same money. In either order the second one is refused; pushed at the same
time, both can be accepted, and both recipients - and both miners - get what their block alone would have given them, while the
sender pays once. -/
theorem C140_double_spend_violated (hn : Reach E n) {a b b' c c' : Addr} (hdist : [a, b, b', c, c'].Nodup) {t t' : Tx} {v : UInt64}
    (ha : accountOf n a = .basic ⟨v⟩) (h0 : ∀ x ∈ [b, b', c, c'], (accountOf n x).type = 0)
    (hs : t.getSender E.H = (a, 0)) (hs' : t'.getSender E.H = (a, 0))
    (hr : t.getRecipient = (b, 0)) (hr' : t'.getRecipient = (b', 0)) (hcr : creates t = false) (hcr' : creates t' = false)
    (hle : t.amount.1 + t.amount.2 ≤ v) (hle' : t'.amount.1 + t'.amount.2 ≤ v)
    (hover : v.toNat < (t.amount.1 + t.amount.2).toNat + (t'.amount.1 + t'.amount.2).toNat)
    {height height' : UInt32} (hh : height ≠ 0) (hh' : height' ≠ 0) (hash hash' : Hash32) :
    let b1 : Block := ⟨height, hash, some ⟨c, [t], []⟩⟩
    let b2 : Block := ⟨height', hash', some ⟨c', [t'], []⟩⟩
    (Push E b2 (Push E b1 n).2).1 ≠ .ok () ∧ (Push E b1 (Push E b2 n).2).1 ≠ .ok () ∧
    ∃ schedule,
      let r := pushAll E (fun i => if i = 0 then b1 else b2) schedule n
      r.1 0 = .done (.ok ()) ∧ r.1 1 = .done (.ok ()) ∧
      accountOf r.2 a = .basic ⟨v - (t.amount.1 + t.amount.2)⟩ ∧
      accountOf r.2 b = accountOf (Push E b1 n).2 b ∧ accountOf r.2 b' = accountOf (Push E b2 n).2 b' ∧
      accountOf r.2 c = accountOf (Push E b1 n).2 c ∧ accountOf r.2 c' = accountOf (Push E b2 n).2 c' := by
  intro b1 b2
  simp only [List.nodup_cons, List.mem_cons, List.not_mem_nil, or_false, not_or, List.nodup_nil, and_true] at hdist
  obtain ⟨⟨hab, hab', hac, hac'⟩, ⟨hbb', hbc, hbc'⟩, ⟨hb'c, hb'c'⟩, ⟨hcc', -⟩⟩ := hdist
  have hb0 := h0 b (by simp)
  have hb0' := h0 b' (by simp)
  have hc0 := h0 c (by simp)
  have hc0' := h0 c' (by simp)
  have q1 := single_push_node hn (hash := hash) (x := .basic ⟨v - (t.amount.1 + t.amount.2)⟩) hab hac hbc hh (by rw [hs])
    (.inr (by rw [hs, ha]; rfl)) hr hcr (by rw [ha]; exact basic_out rfl hle) (fun h => h.2 rfl) hb0 hc0
  have q2 := single_push_node hn (hash := hash') (x := .basic ⟨v - (t'.amount.1 + t'.amount.2)⟩) hab' hac' hb'c' hh' (by rw [hs'])
    (.inr (by rw [hs', ha]; rfl)) hr' hcr' (by rw [ha]; exact basic_out rfl hle') (fun h => h.2 rfl) hb0' hc0'
  -- the second of two blocks is refused
  have refused : ∀ {n : Node} (_ : Reach E n) {w : UInt64} {u : Tx} {hgt : UInt32} {hs : Hash32} {z : Addr},
      accountOf n a = .basic ⟨w⟩ → u.getSender E.H = (a, 0) → w < u.amount.1 + u.amount.2 →
      (Push E ⟨hgt, hs, some ⟨z, [u], []⟩⟩ n).1 ≠ .ok () := by
    intro n hn w u hgt hsh z hw hu hlt hcon
    rw [(hn.push_eq _).1] at hcon
    obtain ⟨bd, hbd, -, hS, -⟩ := push_iff.mp (Prod.ext hcon rfl :
      push E mapLedger ⟨hgt, hsh, some ⟨z, [u], []⟩⟩ (accountOf n) = (.ok (), _))
    cases hbd
    obtain ⟨-, x, hx⟩ := hS [] u [] rfl
    have e0 : afterSenders E.H [] (accountOf n) = accountOf n := by funext a; simp [afterSenders, sentBy]
    rw [e0, hu] at hx
    simp only [hw, applyOutgoing, basicOutgoing] at hx
    rw [if_pos hlt] at hx
    cases hx
  have hlt1 : v - (t.amount.1 + t.amount.2) < t'.amount.1 + t'.amount.2 := by
    rw [UInt64.lt_iff_toNat_lt, UInt64.toNat_sub_of_le _ _ hle]
    have := UInt64.le_iff_toNat_le.mp hle
    omega
  have hlt2 : v - (t'.amount.1 + t'.amount.2) < t.amount.1 + t.amount.2 := by
    rw [UInt64.lt_iff_toNat_lt, UInt64.toNat_sub_of_le _ _ hle']
    have := UInt64.le_iff_toNat_le.mp hle'
    omega
  have a1 : accountOf (Push E b1 n).2 a = .basic ⟨v - (t.amount.1 + t.amount.2)⟩ := by
    rw [q1.2, AMap.set_ne _ _ hac, AMap.set_ne _ _ hab, AMap.set_same]
  have a2 : accountOf (Push E b2 n).2 a = .basic ⟨v - (t'.amount.1 + t'.amount.2)⟩ := by
    rw [q2.2, AMap.set_ne _ _ hac', AMap.set_ne _ _ hab', AMap.set_same]
  refine ⟨refused (hn.push b1) a1 hs' hlt1, refused (hn.push b2) a2 hs hlt2, ?_⟩
  obtain ⟨s, r1, r2, r3⟩ := C140_stale hn b1 b2 _ rfl t [] rfl a (by rw [hs]) (.inr (by rw [hs, ha]; rfl)) _
    (by rw [ha]; exact basic_out rfl hle)
  refine ⟨s, ?_⟩
  simp only [] at r1 r2 r3 ⊢
  have hn2 : Reach E (Node.putAccount E.H a (some (accountOf n a)) (Push E b2 n).2).2 := .put _ _ (hn.push b2)
  have hm2 : ∀ x, accountOf (Node.putAccount E.H a (some (accountOf n a)) (Push E b2 n).2).2 x =
      if x = a then accountOf n a else accountOf (Push E b2 n).2 x := by
    intro x
    rw [accountOf_put (hn.push b2)]
    unfold AMap.set
    split <;> rfl
  have other : ∀ x, x ≠ a → x ≠ b' → x ≠ c' → accountOf (Push E b2 n).2 x = accountOf n x := by
    intro x x1 x2 x3
    rw [q2.2, AMap.set_ne _ _ x3, AMap.set_ne _ _ x2, AMap.set_ne _ _ x1]
  have eb : accountOf (Node.putAccount E.H a (some (accountOf n a)) (Push E b2 n).2).2 b = accountOf n b := by
    rw [hm2, if_neg (Ne.symm hab), other b (Ne.symm hab) hbb' hbc']
  have ec : accountOf (Node.putAccount E.H a (some (accountOf n a)) (Push E b2 n).2).2 c = accountOf n c := by
    rw [hm2, if_neg (Ne.symm hac), other c (Ne.symm hac) (Ne.symm hb'c) hcc']
  have ea : accountOf (Node.putAccount E.H a (some (accountOf n a)) (Push E b2 n).2).2 a = .basic ⟨v⟩ := by
    rw [hm2, if_pos rfl, ha]
  have q3 := single_push_node hn2 (hash := hash) (x := .basic ⟨v - (t.amount.1 + t.amount.2)⟩) hab hac hbc hh (by rw [hs])
    (.inr (by rw [hs, ea]; rfl)) hr hcr (by rw [ea]; exact basic_out rfl hle) (fun h => h.2 rfl) (by rw [eb]; exact hb0)
    (by rw [ec]; exact hc0)
  rw [r1, r2, r3, q3.2, q1.2]
  refine ⟨congrArg _ q3.1, congrArg _ q2.1, ?_, ?_, ?_, ?_, ?_⟩
  · rw [AMap.set_ne _ _ hac, AMap.set_ne _ _ hab, AMap.set_same]
  · rw [AMap.set_ne _ _ hbc, AMap.set_same, AMap.set_ne _ _ hbc, AMap.set_same, eb]
  · rw [AMap.set_ne _ _ hb'c, AMap.set_ne _ _ (Ne.symm hbb'), AMap.set_ne _ _ (Ne.symm hab'), hm2, if_neg (Ne.symm hab')]
  · rw [AMap.set_same, AMap.set_same, ec]
  · rw [AMap.set_ne _ _ (Ne.symm hcc'), AMap.set_ne _ _ (Ne.symm hbc'), AMap.set_ne _ _ (Ne.symm hac'), hm2, if_neg (Ne.symm hac')]

/-- A case of C140_double_spend_violated: address 1 has 10, pays 6 to address 2 in one block and 7 to address 3 in another. -/
example : ∃ (n : Node) (b1 b2 : Block) (schedule : List Nat), Reach E n ∧
    (Push E b1 n).1 = .ok () ∧ (Push E b2 n).1 = .ok () ∧
    (Push E b2 (Push E b1 n).2).1 ≠ .ok () ∧ (Push E b1 (Push E b2 n).2).1 ≠ .ok () ∧
    (pushAll E (fun i => if i = 0 then b1 else b2) schedule n).1 0 = .done (.ok ()) ∧
    (pushAll E (fun i => if i = 0 then b1 else b2) schedule n).1 1 = .done (.ok ()) ∧
    accountOf (pushAll E (fun i => if i = 0 then b1 else b2) schedule n).2 (Witness.addr 1) = .basic ⟨4⟩ ∧
    accountOf (pushAll E (fun i => if i = 0 then b1 else b2) schedule n).2 (Witness.addr 2) = .basic ⟨6⟩ ∧
    accountOf (pushAll E (fun i => if i = 0 then b1 else b2) schedule n).2 (Witness.addr 3) = .basic ⟨7⟩ := by
  let t : Tx := .extended ⟨[], Witness.addr 1, 0, Witness.addr 2, 0, 6, 0, 1, 1, 0, []⟩
  let t' : Tx := .extended ⟨[], Witness.addr 1, 0, Witness.addr 3, 0, 7, 0, 1, 1, 0, []⟩
  have hn : Reach E (Node.putAccount E.H (Witness.addr 1) (some (.basic ⟨10⟩)) newNode).2 := .put _ _ .new
  have acc : ∀ x, accountOf (Node.putAccount E.H (Witness.addr 1) (some (.basic ⟨10⟩)) newNode).2 x =
      if x = Witness.addr 1 then .basic ⟨10⟩ else .basic ⟨0⟩ := by
    intro x
    rw [accountOf_put .new]
    unfold AMap.set
    split
    · rfl
    · exact congrFun accountOf_new x
  have h1 : accountOf (Node.putAccount E.H (Witness.addr 1) (some (.basic ⟨10⟩)) newNode).2 (Witness.addr 1) = .basic ⟨10⟩ := by
    rw [acc, if_pos rfl]
  have ho : ∀ i, i ≠ 1 → accountOf (Node.putAccount E.H (Witness.addr 1) (some (.basic ⟨10⟩)) newNode).2 (Witness.addr i) = .basic ⟨0⟩ := by
    intro i hi
    rw [acc, if_neg fun h => hi (Witness.addr_inj.mp h)]
  have z : ∀ i, i ≠ 1 → (accountOf (Node.putAccount E.H (Witness.addr 1) (some (.basic ⟨10⟩)) newNode).2 (Witness.addr i)).type = 0 := by
    intro i hi; rw [ho i hi]; rfl
  obtain ⟨r1, r2, s, r3, r4, r5, r6, r7, -⟩ := C140_double_spend_violated (E := E) hn (a := Witness.addr 1) (b := Witness.addr 2)
    (b' := Witness.addr 3) (c := Witness.addr 4) (c' := Witness.addr 5) (t := t) (t' := t') (v := 10)
    (by simp) h1 (by
      intro x hx
      simp only [List.mem_cons, List.not_mem_nil, or_false] at hx
      rcases hx with rfl | rfl | rfl | rfl <;> exact z _ (by decide))
    rfl rfl rfl rfl (by decide) (by decide) (by decide) (by decide) (by decide) (height := 5) (height' := 5) (by decide) (by decide)
    (BArr.zero 32) (BArr.zero 32)
  have q1 := single_push_node hn (tx := t) (c := Witness.addr 4) (height := 5) (hash := BArr.zero 32)
    (a := Witness.addr 1) (b := Witness.addr 2) (x := .basic ⟨10 - 6⟩) (by simp) (by simp) (by simp) (by decide) rfl (.inr (by rw [h1]; rfl)) rfl (by decide)
    (by rw [h1]; exact basic_out (tx := t) (v := 10) (d := 6) rfl (by decide)) (fun h => h.2 rfl) (z 2 (by decide)) (z 4 (by decide))
  have q2 := single_push_node hn (tx := t') (c := Witness.addr 5) (height := 5) (hash := BArr.zero 32)
    (a := Witness.addr 1) (b := Witness.addr 3) (x := .basic ⟨10 - 7⟩) (by simp) (by simp) (by simp) (by decide) rfl (.inr (by rw [h1]; rfl)) rfl (by decide)
    (by rw [h1]; exact basic_out (tx := t') (v := 10) (d := 7) rfl (by decide)) (fun h => h.2 rfl) (z 3 (by decide)) (z 5 (by decide))
  refine ⟨_, _, _, s, hn, q1.1, q2.1, r1, r2, r3, r4, r5.trans (congrArg (fun v => Account.basic ⟨v⟩) (show (10 : UInt64) - (6 + 0) = 4 by decide)), r6.trans ?_, r7.trans ?_⟩
  · rw [q1.2, AMap.set_ne _ _ (by simp), AMap.set_same, ho 2 (by decide)]; rfl
  · rw [q2.2, AMap.set_ne _ _ (by simp), AMap.set_same, ho 3 (by decide)]; rfl

end Nimiq.Accounts
