import Verif.Accounts.ContractProps
/-!
# C125: entries that are not accounts

`wire.Account` is an interface that any program can implement, `PutAccount` takes any value of it, and the field
`Accounts.Tree` is exported, so that a program can also write entries itself.  This is the ledger over trees with arbitrary
entries.
-/
namespace Nimiq.Accounts
open Beserial Beserial.Spec Wire Spec

/-- account.go:12-21 any implementation of `wire.Account`, as far as `PutAccount` can see it: the results of `Type()` and
`IsEmpty()` (which may panic, as on a nil `*BasicAccount`) and what `beserial.Marshal` of it appends to a buffer. -/
structure AnyAccount where
  type : UInt8
  isEmpty : Out Bool
  marshal : Bytes → Out Bytes

/-- accounts.go:89 `acc.Type() == wire.AccountBasic && acc.IsEmpty()` -/
def AnyAccount.prunes (acc : AnyAccount) : Out Bool := if acc.type = 0 then acc.isEmpty else .ok false

/-- accounts.go:87-99 `PutAccount`, of any implementation (account.go:59-62 for the type byte) -/
def Node.putAny (H : Bytes → Hash32) (addr : Addr) : Option AnyAccount → M Node Unit
  | none => Node.putEntry H addr []
  | some acc => do
    let prune ← M.lift acc.prunes
    if prune then Node.putEntry H addr []
    else
      match acc.marshal [acc.type] with
      | .ok buf => Node.putEntry H addr buf
      | .err _ => M.panic
      | .panic => M.panic

/-- The accounts of package wire as implementations of the interface: account.go:112-122, 155-165, 281-291, encode.go:10-24 -/
def AnyAccount.ofWire : Account → AnyAccount
  | .basic a => ⟨0, .ok (a.value == 0), fun b => Marshal b BasicAccount.ty a.toVal⟩
  | .vesting a => ⟨1, .ok (a.value == 0), fun b => Marshal b VestingAccount.ty a.toVal⟩
  | .htlc a => ⟨2, .ok (a.value == 0), fun b => Marshal b HTLCAccount.ty a.toVal⟩

/-- The states of a ledger whose tree is also written to directly, and with accounts of any type. -/
inductive FReach (E : Env) : Node → Prop
  | new : FReach E newNode
  | put {n : Node} (a : Addr) (acc : Option AnyAccount) : FReach E n → FReach E (Node.putAny E.H a acc n).2
  | entry {n : Node} (a : Addr) (buf : Bytes) : FReach E n → FReach E (Node.putEntry E.H a buf n).2
  | push {n : Node} (block : Block) : FReach E n → FReach E (Push E block n).2
  | policy {n : Node} {c : List UInt64} : FReach E n → Policy.Reachable c → FReach E ⟨n.tree, c⟩

/-- The answer of `a.Tree.GetEntry(addr)`, no entry being no bytes. -/
def entryAt (n : Node) (a : Addr) : Bytes :=
  match Tree.getEntry a n.tree with
  | some (some b, _) => b
  | _ => []

/-- An entry that stands for an account: nothing for the initial account, or exactly the account's encoding. -/
def Reads (b : Bytes) (acc : Account) : Prop := b = [] ∧ acc = .basic ⟨0⟩ ∨ b = accountLayout acc

/-- An address the block deals with. -/
def Involved (H : Bytes → Hash32) (body : Body) (a : Addr) : Prop :=
  a = body.minerAddr ∨ ∃ tx ∈ body.txs, (tx.getSender H).1 = a ∨ tx.getRecipient.1 = a

/-! ## Proofs -/

/-- The node holds the entries `W`. -/
structure Raw (H : Bytes → Hash32) (n : Node) (W : Addr → Bytes) : Prop where
  tree : Tree.TreeInv H n.tree W
  cache : Policy.Reachable n.cache

variable {E : Env} {H : Bytes → Hash32} {n : Node} {W : Addr → Bytes}

theorem Raw.entryAt (h : Raw H n W) : entryAt n = W := by
  funext a
  unfold Accounts.entryAt
  rw [Tree.getEntry_spec h.tree a]
  by_cases hm : W a = [] <;> simp [hm]

theorem reads_fun {b : Bytes} {x y : Account} (hx : Reads b x) (hy : Reads b y) : x = y := by
  rcases hx with ⟨h1, h2⟩ | h1 <;> rcases hy with ⟨h3, h4⟩ | h3
  · rw [h2, h4]
  · exact absurd (h3.symm.trans h1) (accountLayout_ne_nil y)
  · exact absurd (h1.symm.trans h3) (accountLayout_ne_nil x)
  · have e1 := (C40_round_trip x [] []).2
    have e2 := (C40_round_trip y [] []).2
    rw [← h1, h3] at e1
    rw [e1] at e2
    injection e2 with e2
    simpa using congrArg Prod.snd e2

theorem reads_entryOf (x : Account) : Reads (entryOf x) x := by
  unfold entryOf
  by_cases h : x = initialAccount
  · rw [if_pos h]; exact .inl ⟨rfl, h⟩
  · rw [if_neg h]; exact .inr rfl

open Classical in
/-- `GetAccount` on the entries. -/
noncomputable def rawGet (b : Bytes) : Out Account := if h : ∃ x, Reads b x then .ok h.choose else .panic

theorem rawGet_ok {b : Bytes} {x : Account} : rawGet b = .ok x ↔ Reads b x := by
  unfold rawGet
  by_cases h : ∃ x, Reads b x
  · rw [dif_pos h]
    constructor
    · intro e; cases e; exact h.choose_spec
    · intro e; rw [reads_fun h.choose_spec e]
  · rw [dif_neg h]
    constructor
    · intro e; cases e
    · intro e; exact absurd ⟨x, e⟩ h

theorem rawGet_panic {b : Bytes} (h : ¬ ∃ x, Reads b x) : rawGet b = .panic := by unfold rawGet; rw [dif_neg h]

theorem Raw.getAccount (h : Raw H n W) (a : Addr) : Node.getAccount a n = (rawGet (W a), n) := by
  unfold Node.getAccount
  rw [Tree.getEntry_spec h.tree a]
  by_cases hm : W a = []
  · rw [rawGet_ok.mpr (.inl ⟨hm, rfl⟩)]
    simp [hm, initialAccount]
  · have hlen : ¬ (W a).length ≤ 0 := by
      have := List.length_pos_iff.mpr hm; omega
    simp only [hm, if_false, Option.getD_some, hlen]
    have hbad : (¬ ∃ x, W a = accountLayout x) → rawGet (W a) = .panic := by
      intro hno
      apply rawGet_panic
      rintro ⟨x, ⟨h1, _⟩ | h1⟩
      · exact hm h1
      · exact hno ⟨x, h1⟩
    by_cases hx : ∃ x, W a = accountLayout x
    · obtain ⟨x, hx⟩ := hx
      have hdec := (C40_round_trip x [] []).2
      rw [List.append_nil, ← hx] at hdec
      rw [rawGet_ok.mpr (.inr hx)]
      simp only [hdec, ne_eq, not_true_eq_false, if_false]
    · rw [hbad hx]
      cases hd : WrapAccount.dec (W a) with
      | err e => rfl
      | panic => rfl
      | ok r =>
        obtain ⟨k, w⟩ := r
        obtain ⟨x, h1, h2, h3⟩ := C40_canonical _ _ _ hd
        subst h1
        simp only []
        by_cases hk : k = (W a).length
        · rw [hk, List.take_length] at h3
          exact absurd ⟨x, h3⟩ hx
        · rw [if_pos hk]

theorem Raw.putEntry (h : Raw H n W) (a : Addr) (b : Bytes) :
    (Node.putEntry H a b n).1 = .ok () ∧ Raw H (Node.putEntry H a b n).2 (Tree.Spec.set W a b) := by
  obtain ⟨c, w', h1, h2, _⟩ := Tree.putEntry_spec h.tree a b
  unfold Node.putEntry
  rw [h1]
  exact ⟨rfl, h2, h.cache⟩

theorem putAccount_entry (a : Addr) (acc : Option Account) :
    Node.putAccount H a acc = Node.putEntry H a (entryOf (acc.getD initialAccount)) := by
  cases acc with
  | none => simp [Node.putAccount, entryOf]
  | some x =>
    unfold entryOf
    by_cases hx : x = initialAccount
    · subst hx
      have := (initial_iff initialAccount).mpr rfl
      simp [Node.putAccount, this]
    · have hc : ¬ (x.type = 0 ∧ isEmpty x = true) := fun hc => hx ((initial_iff x).mp hc)
      have henc := (C40_round_trip x [] []).1
      rw [List.nil_append] at henc
      simp only [Node.putAccount, hc, hx, if_false, henc, Option.getD_some]

/-- The ledger on entries. -/
noncomputable def rawLedger : Ledger (Addr → Bytes) where
  getAccount a := fun W => (rawGet (W a), W)
  putAccount a acc := fun W => (.ok (), Tree.Spec.set W a (entryOf (acc.getD initialAccount)))
  blockReward h := fun W => if h = 0 then (.panic, W) else (.ok (rewardAt h), W)

theorem rawSim (H : Bytes → Hash32) : SimLedger (Raw H) (nodeLedger H) rawLedger where
  get a := by
    intro n W h
    show (Node.getAccount a n).1 = _ ∧ Raw H (Node.getAccount a n).2 _
    rw [h.getAccount a]
    exact ⟨rfl, h⟩
  put a acc := by
    intro n W h
    show (Node.putAccount H a acc n).1 = _ ∧ Raw H (Node.putAccount H a acc n).2 _
    rw [putAccount_entry]
    exact h.putEntry a _
  reward k := by
    intro n W h
    show (Node.blockReward k n).1 = (rawLedger.blockReward k W).1 ∧ Raw H (Node.blockReward k n).2 (rawLedger.blockReward k W).2
    unfold Node.blockReward rawLedger
    by_cases hk : k = 0
    · rw [((Policy.C26_reward_is_increment h.cache h.cache h.cache k).1.mpr hk)]
      simp [hk, h]
    · obtain ⟨c', e1, e2⟩ := rewardAt_eq h.cache hk
      rw [e1]
      simp only [hk, if_false]
      exact ⟨trivial, ⟨h.tree, e2⟩⟩

theorem Raw.push (h : Raw E.H n W) (block : Block) :
    (Push E block n).1 = (Accounts.push E rawLedger block W).1 ∧ Raw E.H (Push E block n).2 (Accounts.push E rawLedger block W).2 :=
  sim_push E (rawSim E.H) block n W h

theorem Raw.putAny (h : Raw H n W) (a : Addr) (acc : Option AnyAccount) : ∃ W', Raw H (Node.putAny H a acc n).2 W' := by
  cases acc with
  | none => exact ⟨_, (h.putEntry a []).2⟩
  | some x =>
    unfold Node.putAny
    simp only [M.bind_eq]
    rw [M.lift_eq]
    cases x.prunes with
    | err e => exact ⟨W, h⟩
    | panic => exact ⟨W, h⟩
    | ok p =>
      cases p with
      | true => exact ⟨_, (h.putEntry a []).2⟩
      | false =>
        cases hm : x.marshal [x.type] with
        | ok buf => simp only [Bool.false_eq_true, if_false]; exact ⟨_, (h.putEntry a buf).2⟩
        | err e => exact ⟨W, h⟩
        | panic => exact ⟨W, h⟩

theorem FReach.raw (h : FReach E n) : Raw E.H n (entryAt n) := by
  have : ∃ W, Raw E.H n W := by
    induction h with
    | new => exact ⟨fun _ => [], Tree.newWorld_inv, .init⟩
    | put a acc _ ih => obtain ⟨W, hM⟩ := ih; exact hM.putAny a acc
    | entry a b _ ih => obtain ⟨W, hM⟩ := ih; exact ⟨_, (hM.putEntry a b).2⟩
    | push b _ ih => obtain ⟨W, hM⟩ := ih; exact ⟨_, (hM.push b).2⟩
    | policy _ hc ih => obtain ⟨W, hM⟩ := ih; exact ⟨W, hM.tree, hc⟩
  obtain ⟨W, hM⟩ := this
  rw [hM.entryAt]; exact hM

/-! ### Simulation on the involved addresses -/

section
variable {σ τ : Type} {R : σ → τ → Prop} {L : Ledger σ} {K : Ledger τ} {S : Addr → Prop}

/-- Two ledgers do the same on the addresses `S`. -/
structure SimOn (S : Addr → Prop) (R : σ → τ → Prop) (L : Ledger σ) (K : Ledger τ) : Prop where
  get : ∀ a, S a → Sim R (L.getAccount a) (K.getAccount a)
  put : ∀ a acc, S a → Sim R (L.putAccount a acc) (K.putAccount a acc)
  reward : ∀ h, Sim R (L.blockReward h) (K.blockReward h)

theorem forTxs_on {f : Tx → M σ Unit} {g : Tx → M τ Unit} : ∀ txs : List Tx, (∀ tx ∈ txs, Sim R (f tx) (g tx)) →
    Sim R (forTxs txs f) (forTxs txs g) := by
  intro txs
  induction txs with
  | nil => intro _; exact Sim.pure ()
  | cons tx txs ih =>
    intro h
    exact Sim.bind (h tx (List.mem_cons_self ..)) fun _ => ih fun t ht => h t (List.mem_cons_of_mem _ ht)

variable (O : SimOn S R L K)
include O

theorem pushTx_on {a : Addr} (ha : S a) (ty : UInt8) (tx : Tx) (h : UInt32) (op : AccountOp) :
    Sim R (pushTx L a ty tx h op) (pushTx K a ty tx h op) :=
  Sim.bind (O.get a ha) fun _ => Sim.ite (Sim.throw _) (Sim.bind (Sim.lift _) fun _ => O.put a _ ha)

theorem createContract_on (tx : Tx) (h : UInt32) (ha : S tx.getRecipient.1) :
    Sim R (createContract E L tx h) (createContract E K tx h) := by
  unfold createContract
  simp only [content_recipient]
  refine Sim.ite Sim.panic (Sim.bind (O.get _ ha) fun acc => Sim.ite (Sim.throw _) (Sim.ite ?_ (Sim.ite ?_ (Sim.throw _))))
  · exact Sim.bind (Sim.lift _) fun _ => O.put _ _ ha
  · exact Sim.bind (Sim.lift _) fun _ => O.put _ _ ha

theorem pruneLoop_on : ∀ (txs : List Tx) (pm : PruneMap), (∀ tx ∈ txs, S (tx.getSender E.H).1) →
    Sim R (pruneLoop E L txs pm) (pruneLoop E K txs pm) := by
  intro txs
  induction txs with
  | nil => intro pm _; exact Sim.pure pm
  | cons tx txs ih =>
    intro pm h
    have h1 := h tx (List.mem_cons_self ..)
    have h2 := fun t ht => h t (List.mem_cons_of_mem tx ht)
    unfold pruneLoop
    refine Sim.bind (O.get _ h1) fun acc => Sim.ite (ih _ h2) ?_
    cases pm.get (tx.getSender E.H).1 with
    | none => exact Sim.throw _
    | some x => exact Sim.ite (Sim.throw _) (Sim.bind (O.put _ _ h1) fun _ => ih _ h2)

theorem push_on (block : Block) (body : Body) (hb : block.body = some body) (hS : ∀ a, Involved E.H body a → S a) :
    Sim R (push E L block) (push E K block) := by
  have h1 : ∀ tx ∈ body.txs, S (tx.getSender E.H).1 := fun tx ht => hS _ (.inr ⟨tx, ht, .inl rfl⟩)
  have h2 : ∀ tx ∈ body.txs, S tx.getRecipient.1 := fun tx ht => hS _ (.inr ⟨tx, ht, .inr rfl⟩)
  unfold push
  rw [hb]
  simp only []
  refine Sim.bind (forTxs_on _ fun tx ht => ?_) fun _ => Sim.bind (forTxs_on _ fun tx ht => ?_) fun _ =>
    Sim.bind (forTxs_on _ fun tx ht => Sim.ite (createContract_on O _ _ (h2 tx ht)) (Sim.pure ())) fun _ => Sim.bind ?_ fun _ => ?_
  · exact pushTx_on O (by rw [content_sender]; exact h1 tx ht) _ _ _ _
  · exact pushTx_on O (by rw [content_recipient]; exact h2 tx ht) _ _ _ _
  · unfold pruneAccounts
    refine Sim.bind (pruneLoop_on O _ _ h1) fun pm => ?_
    by_cases h : pm.map (·.1) ≠ []
    · simp only [dif_pos h]; exact Sim.throw _
    · simp only [dif_neg h]; exact Sim.pure ()
  · exact Sim.bind (O.reward _) fun r => pushTx_on O (hS _ (.inl rfl)) _ _ _ _

end

theorem raw_map_on (S : Addr → Prop) (W0 : Addr → Bytes) :
    SimOn S (fun (W : Addr → Bytes) (m : AMap) => (∀ a, S a → Reads (W a) (m a)) ∧ ∀ a, ¬ S a → W a = W0 a)
      rawLedger mapLedger where
  get a ha := by
    intro W m h
    exact ⟨rawGet_ok.mpr (h.1 a ha), h⟩
  put a acc ha := by
    intro W m h
    refine ⟨rfl, fun b hb => ?_, fun b hb => ?_⟩
    · show Reads (Tree.Spec.set W a (entryOf (acc.getD initialAccount)) b) (m.set a (acc.getD initialAccount) b)
      by_cases e : b = a
      · subst e; simp only [Tree.Spec.set, if_true, AMap.set_same]; exact reads_entryOf _
      · rw [AMap.set_ne _ _ e]; simp only [Tree.Spec.set, e, if_false]; exact h.1 b hb
    · have e : b ≠ a := fun e => hb (e ▸ ha)
      show Tree.Spec.set W a (entryOf (acc.getD initialAccount)) b = _
      simp only [Tree.Spec.set, e, if_false]
      exact h.2 b hb
  reward k := by
    intro W m h
    unfold rawLedger mapLedger
    simp only []
    split <;> exact ⟨rfl, h⟩

/-! ### Unreadable entries -/

/-- The entry at `a` is unreadable before, and, if the call succeeds, afterwards. -/
def Stuck (a : Addr) {α : Type} (x : M (Addr → Bytes) α) : Prop :=
  ∀ W r, (¬ ∃ y, Reads (W a) y) → (x W).1 = .ok r → ¬ ∃ y, Reads ((x W).2 a) y

section
variable {a : Addr} {α β : Type}

theorem Stuck.bind {x : M (Addr → Bytes) α} {f : α → M (Addr → Bytes) β} (h : Stuck a x) (hf : ∀ r, Stuck a (f r)) :
    Stuck a (x >>= f) := by
  intro W r hM hr
  rw [M.bind_eq] at hr ⊢
  rcases hx : x W with ⟨o, W1⟩
  rw [hx] at hr
  cases o with
  | ok b =>
    refine hf b W1 r ?_ hr
    have := h W b hM (by rw [hx])
    rwa [hx] at this
  | err e => cases hr
  | panic => cases hr

theorem Stuck.still {x : M (Addr → Bytes) α} (h : ∀ W, (x W).2 = W) : Stuck a x := by
  intro W r hM _
  rw [h]; exact hM

theorem Stuck.ite {c : Prop} [Decidable c] {x y : M (Addr → Bytes) α} (h : Stuck a x) (h' : Stuck a y) :
    Stuck a (if c then x else y) := by
  by_cases hc : c
  · rwa [if_pos hc]
  · rwa [if_neg hc]

theorem Stuck.put {b : Addr} (hb : a ≠ b) (acc : Option Account) : Stuck a (rawLedger.putAccount b acc) := by
  intro W r hM _
  show ¬ ∃ y, Reads (Tree.Spec.set W b _ a) y
  simp only [Tree.Spec.set, hb, if_false]
  exact hM

/-- What starts by reading the unreadable account does not succeed. -/
theorem Stuck.read (f : Account → M (Addr → Bytes) β) {b : Addr} (h : a ≠ b → ∀ x, Stuck a (f x)) :
    Stuck a (rawLedger.getAccount b >>= f) := by
  by_cases e : a = b
  · subst e
    intro W r hM hr
    rw [M.bind_eq, show rawLedger.getAccount a W = (rawGet (W a), W) from rfl, rawGet_panic hM] at hr
    cases hr
  · exact .bind (.still fun _ => rfl) (h e)

theorem stuck_forTxs {f : Tx → M (Addr → Bytes) Unit} : ∀ txs : List Tx, (∀ tx, Stuck a (f tx)) → Stuck a (forTxs txs f) := by
  intro txs
  induction txs with
  | nil => intro _; exact .still fun _ => rfl
  | cons tx txs ih => intro h; exact .bind (h tx) fun _ => ih h

theorem stuck_pushTx (b : Addr) (ty : UInt8) (tx : Tx) (h : UInt32) (op : AccountOp) : Stuck a (pushTx rawLedger b ty tx h op) :=
  .read _ fun e _ => .ite (.still fun _ => rfl) (.bind (.still fun _ => rfl) fun _ => .put e _)

theorem stuck_pruneLoop : ∀ (txs : List Tx) (pm : PruneMap), Stuck a (pruneLoop E rawLedger txs pm) := by
  intro txs
  induction txs with
  | nil => intro pm; exact .still fun _ => rfl
  | cons tx txs ih =>
    intro pm
    unfold pruneLoop
    refine .read _ fun e acc => .ite (ih _) ?_
    cases pm.get (tx.getSender E.H).1 with
    | none => exact .still fun _ => rfl
    | some x => exact .ite (.still fun _ => rfl) (.bind (.put e _) fun _ => ih _)

/-- Senders and recipients must be readable. -/
theorem never_ok {f : Tx → M (Addr → Bytes) Unit} (hs : ∀ tx, Stuck a (f tx)) : ∀ (txs : List Tx) (t : Tx), t ∈ txs →
    (∀ W r, (¬ ∃ y, Reads (W a) y) → (f t W).1 ≠ .ok r) → ∀ W r, (¬ ∃ y, Reads (W a) y) → (forTxs txs f W).1 ≠ .ok r := by
  intro txs
  induction txs with
  | nil => intro t ht; cases ht
  | cons tx txs ih =>
    intro t ht hf W r hM hr
    unfold forTxs at hr
    rw [M.bind_eq] at hr
    rcases hx : f tx W with ⟨o, W1⟩
    rw [hx] at hr
    cases o with
    | err e => cases hr
    | panic => cases hr
    | ok u =>
      rcases List.mem_cons.mp ht with rfl | ht
      · exact hf W u hM (by rw [hx])
      · have := hs tx W u hM (by rw [hx])
        rw [hx] at this
        exact ih t ht hf W1 r this hr

theorem pushTx_unreadable (ty : UInt8) (tx : Tx) (h : UInt32) (op : AccountOp) (W : Addr → Bytes) (r : Unit)
    (hM : ¬ ∃ y, Reads (W a) y) : (pushTx rawLedger a ty tx h op W).1 ≠ .ok r := by
  unfold pushTx
  rw [M.bind_eq, show rawLedger.getAccount a W = (rawGet (W a), W) from rfl, rawGet_panic hM]
  intro h; cases h

theorem push_unreadable {block : Block} {body : Body} (hb : block.body = some body) (ha : Involved E.H body a)
    (W : Addr → Bytes) (hM : ¬ ∃ y, Reads (W a) y) : (push E rawLedger block W).1 ≠ .ok () := by
  intro hr
  unfold push at hr
  rw [hb] at hr
  have hok : ∃ W', push E rawLedger block W = (.ok (), W') := ⟨_, by
    unfold push; rw [hb]; exact Prod.ext hr rfl⟩
  obtain ⟨W', hok⟩ := hok
  unfold push at hok
  rw [hb] at hok
  simp only [M.bind_ok] at hok
  obtain ⟨u1, W1, h1, u2, W2, h2, u3, W3, h3, u4, W4, h4, h5⟩ := hok
  have s1 : Stuck a (pushSenders E rawLedger block.height body) := stuck_forTxs _ fun tx => stuck_pushTx _ _ _ _ _
  have s2 : Stuck a (pushRecipients E rawLedger block.height body) := stuck_forTxs _ fun tx => stuck_pushTx _ _ _ _ _
  have s3 : Stuck a (createContracts E rawLedger block.height body) := stuck_forTxs _ fun tx => by
    refine .ite ?_ (.still fun _ => rfl)
    unfold createContract
    exact .ite (.still fun _ => rfl) (.read _ fun e acc => .ite (.still fun _ => rfl)
      (.ite (.bind (.still fun _ => rfl) fun _ => .put e _) (.ite (.bind (.still fun _ => rfl) fun _ => .put e _)
        (.still fun _ => rfl))))
  have s4 : Stuck a (pruneAccounts E rawLedger body) := by
    unfold pruneAccounts
    refine .bind (stuck_pruneLoop _ _) fun pm => ?_
    by_cases h : pm.map (·.1) ≠ []
    · simp only [dif_pos h]; exact .still fun _ => rfl
    · simp only [dif_neg h]; exact .still fun _ => rfl
  have g1 := s1 W u1 hM (by rw [h1]); rw [h1] at g1
  have g2 := s2 W1 u2 g1 (by rw [h2]); rw [h2] at g2
  have g3 := s3 W2 u3 g2 (by rw [h3]); rw [h3] at g3
  have g4 := s4 W3 u4 g3 (by rw [h4]); rw [h4] at g4
  rcases ha with rfl | ⟨tx, ht, e | e⟩
  · unfold pushInherents at h5
    simp only [M.bind_ok] at h5
    obtain ⟨r, W5, e1, e2⟩ := h5
    have : W5 = W4 := by
      have : (rawLedger.blockReward block.height W4).2 = W4 := by unfold rawLedger; simp only []; split <;> rfl
      rw [e1] at this; exact this
    subst this
    exact pushTx_unreadable _ _ _ _ _ () g4 (by rw [e2])
  · refine never_ok (fun tx => stuck_pushTx _ _ _ _ _) body.txs tx ht (fun W r hM => ?_) W u1 hM (by
      unfold pushSenders at h1; rw [h1])
    rw [content_sender, e]
    exact pushTx_unreadable _ _ _ _ _ _ hM
  · refine never_ok (fun tx => stuck_pushTx _ _ _ _ _) body.txs tx ht (fun W r hM => ?_) W1 u2 g1 (by
      unfold pushRecipients at h2; rw [h2])
    rw [content_recipient, e]
    exact pushTx_unreadable _ _ _ _ _ _ hM

end

/-! ## C125 -/

/-- C125, reading. `GetAccount` answers with an account exactly when the entry stands for that account, and otherwise panics; it
changes nothing, and the state hash is the Merkle root of the entries, whatever they are. -/
theorem C125_get (hn : FReach E n) (a : Addr) :
    (∀ acc, (Node.getAccount a n).1 = .ok acc ↔ Reads (entryAt n a) acc) ∧
    ((¬ ∃ acc, Reads (entryAt n a) acc) → (Node.getAccount a n).1 = .panic) ∧
    (Node.getAccount a n).2 = n ∧
    Node.hash E.H n = (.ok (Tree.Spec.rootHash E.H (entryAt n)), n) := by
  have h := hn.raw
  rw [h.getAccount a]
  refine ⟨fun acc => rawGet_ok, rawGet_panic, rfl, ?_⟩
  unfold Node.hash
  rw [Tree.hash_spec h.tree]

/-- C125, writing. What `PutAccount` does with an account of any implementation: nil and empty basic accounts delete the entry;
otherwise the entry becomes whatever bytes the implementation produces, or the call panics and nothing changes. No other entry
is touched. -/
theorem C125_put (hn : FReach E n) (a : Addr) (acc : AnyAccount) :
    (∀ b, entryAt (Node.putAny E.H a none n).2 b = if b = a then [] else entryAt n b) ∧
    (acc.type = 0 → acc.isEmpty = .ok true → (Node.putAny E.H a (some acc) n).1 = .ok () ∧
      ∀ b, entryAt (Node.putAny E.H a (some acc) n).2 b = if b = a then [] else entryAt n b) ∧
    (acc.type ≠ 0 ∨ acc.isEmpty = .ok false → ∀ buf, acc.marshal [acc.type] = .ok buf →
      (Node.putAny E.H a (some acc) n).1 = .ok () ∧
      ∀ b, entryAt (Node.putAny E.H a (some acc) n).2 b = if b = a then buf else entryAt n b) ∧
    (acc.type ≠ 0 ∨ acc.isEmpty = .ok false → (∀ buf, acc.marshal [acc.type] ≠ .ok buf) →
      Node.putAny E.H a (some acc) n = (.panic, n)) := by
  have h := hn.raw
  have key : ∀ v b, entryAt (Node.putEntry E.H a v n).2 b = if b = a then v else entryAt n b := by
    intro v b
    rw [(h.putEntry a v).2.entryAt]; rfl
  have hne : acc.type ≠ 0 ∨ acc.isEmpty = .ok false →
      Node.putAny E.H a (some acc) n = (match acc.marshal [acc.type] with
        | .ok buf => Node.putEntry E.H a buf
        | .err _ => M.panic
        | .panic => M.panic) n := by
    intro hc
    unfold Node.putAny
    simp only [M.bind_eq]
    by_cases ht : acc.type = 0
    · simp only [AnyAccount.prunes, if_pos ht, M.lift_eq, hc.resolve_left fun h => h ht]
      rfl
    · simp only [AnyAccount.prunes, if_neg ht, M.lift_eq]
      rfl
  refine ⟨key [], fun ht he => ?_, fun hc buf hm => ?_, fun hc hm => ?_⟩
  · have : Node.putAny E.H a (some acc) n = Node.putEntry E.H a [] n := by
      unfold Node.putAny
      simp only [M.bind_eq, AnyAccount.prunes, if_pos ht, M.lift_eq, he]
      rfl
    rw [this]
    exact ⟨(h.putEntry a []).1, key []⟩
  · rw [hne hc, hm]
    exact ⟨(h.putEntry a buf).1, key buf⟩
  · rw [hne hc]
    cases hx : acc.marshal [acc.type] with
    | ok buf => exact absurd hx (hm buf)
    | err e => rfl
    | panic => rfl

/-- C125, for the accounts of package wire `PutAccount` is the one of all the other properties; they count as empty when their
balance is zero, whatever their type. -/
theorem C125_library (a : Addr) (acc : Account) :
    Node.putAny E.H a (some (.ofWire acc)) n = Node.putAccount E.H a (some acc) n ∧
    (AnyAccount.ofWire acc).isEmpty = .ok (Nimiq.Accounts.isEmpty acc) ∧ (AnyAccount.ofWire acc).type = acc.type := by
  refine ⟨?_, by cases acc <;> rfl, by cases acc <;> rfl⟩
  cases acc with
  | basic x =>
    have h1 : Node.putAny E.H a (some (.ofWire (.basic x))) n = if (x.value == 0) = true then Node.putEntry E.H a [] n else
        (match WrapAccount.enc (some (.basic x)) [] with
          | .ok buf => Node.putEntry E.H a buf
          | .err _ => M.panic
          | .panic => M.panic) n := by
      by_cases h : (x.value == 0) = true
      · rw [if_pos h]
        simp only [Node.putAny, M.bind_eq, AnyAccount.prunes, AnyAccount.ofWire, if_true, M.lift_eq, h]
      · rw [if_neg h]
        rw [Bool.not_eq_true] at h
        simp only [Node.putAny, M.bind_eq, AnyAccount.prunes, AnyAccount.ofWire, if_true, M.lift_eq, h]
        rfl
    rw [h1]
    by_cases h : (x.value == 0) = true
    · rw [if_pos h]
      have hc : (Account.basic x).type = 0 ∧ isEmpty (.basic x) = true := ⟨rfl, h⟩
      simp only [Node.putAccount, if_pos hc]
    · rw [if_neg h]
      have hc : ¬ ((Account.basic x).type = 0 ∧ isEmpty (.basic x) = true) := fun k => h k.2
      simp only [Node.putAccount, if_neg hc]
      rfl
  | vesting x => rfl
  | htlc x => rfl

/-- C125, foreign entries do not disturb. Let the entries of the addresses a block involves stand for accounts, and let another,
ordinary ledger have the same accounts there. Then `Push` of the block gives the same result on both, the involved entries
then stand for the accounts of the other ledger, and all other entries are the same bytes as before. -/
theorem C125_push_readable (hn : FReach E n) {n' : Node} (hn' : Reach E n') {block : Block} {body : Body}
    (hb : block.body = some body) (h : ∀ a, Involved E.H body a → Reads (entryAt n a) (accountOf n' a)) :
    (Push E block n).1 = (Push E block n').1 ∧
    (∀ a, Involved E.H body a → Reads (entryAt (Push E block n).2 a) (accountOf (Push E block n').2 a)) ∧
    ∀ a, ¬ Involved E.H body a → entryAt (Push E block n).2 a = entryAt n a := by
  have h1 := hn.raw.push block
  have h2 := push_on (E := E) (raw_map_on (Involved E.H body) (entryAt n)) block body hb (fun _ h => h) (entryAt n) (accountOf n')
    ⟨h, fun _ _ => rfl⟩
  rw [h1.2.entryAt, (hn'.push_eq block).1, (hn'.push_eq block).2, h1.1]
  exact ⟨h2.1, h2.2.1, h2.2.2⟩

/-- C125, a block that involves an address whose entry stands for no account is not accepted. -/
theorem C125_push_unreadable (hn : FReach E n) {block : Block} {body : Body} (hb : block.body = some body) {a : Addr}
    (ha : Involved E.H body a) (h : ¬ ∃ acc, Reads (entryAt n a) acc) : (Push E block n).1 ≠ .ok () := by
  rw [(hn.raw.push block).1]
  exact push_unreadable hb ha _ h

/-- No account has a type byte other than 0, 1 and 2. -/
theorem reads_type {b : Bytes} {t : UInt8} {acc : Account} (h : Reads (t :: b) acc) : t = 0 ∨ t = 1 ∨ t = 2 := by
  rcases h with ⟨h, _⟩ | h
  · cases h
  · cases acc <;> simp only [accountLayout, List.cons_append, List.nil_append, List.append_assoc] at h <;> injection h with h _ <;> simp [h]

/-- C125 is false in what a user would hope for: that what `PutAccount` accepts, `GetAccount` returns. An account of the reserved
type 3 (account.go:28), or of any type above, is accepted and stored; from then on `GetAccount` of this address panics, and no
block that pays to it, from it or is mined by it can be pushed. -/
theorem C125_violated (hn : FReach E n) (a : Addr) (acc : AnyAccount) {buf : Bytes} (ht : 3 ≤ acc.type)
    (hm : acc.marshal [acc.type] = .ok (acc.type :: buf)) :
    (Node.putAny E.H a (some acc) n).1 = .ok () ∧
    (Node.getAccount a (Node.putAny E.H a (some acc) n).2).1 = .panic ∧
    ∀ block body, block.body = some body → Involved E.H body a →
      (Push E block (Node.putAny E.H a (some acc) n).2).1 ≠ .ok () := by
  have h0 : acc.type ≠ 0 ∧ acc.type ≠ 1 ∧ acc.type ≠ 2 := by
    refine ⟨?_, ?_, ?_⟩ <;> (intro e; rw [e] at ht; revert ht; decide)
  have hp := (C125_put hn a acc).2.2.1 (.inl h0.1) _ hm
  have hr : FReach E (Node.putAny E.H a (some acc) n).2 := .put a _ hn
  have hno : ¬ ∃ x, Reads (entryAt (Node.putAny E.H a (some acc) n).2 a) x := by
    rintro ⟨x, hx⟩
    rw [hp.2 a, if_pos rfl] at hx
    rcases reads_type hx with e | e | e
    exacts [h0.1 e, h0.2.1 e, h0.2.2 e]
  exact ⟨hp.1, (C125_get hr a).2.1 hno, fun block body hb ha => C125_push_unreadable hr hb ha hno⟩

/-- An account of type 3 without fields. -/
example (E : Env) (a : Addr) : (Node.getAccount a (Node.putAny E.H a (some ⟨3, .ok false, fun b => .ok b⟩) newNode).2).1 = .panic :=
  (C125_violated .new a ⟨3, .ok false, fun b => .ok b⟩ (buf := []) (by decide) rfl).2.1

/-- A block between accounts beside a foreign entry. -/
example (E : Env) (a b c d : Addr) (hac : a ≠ c) (hbc : b ≠ c) (hdc : d ≠ c) : ∃ (n n' : Node) (block : Block) (body : Body), FReach E n ∧ Reach E n' ∧
    block.body = some body ∧ body.txs ≠ [] ∧ (¬ ∃ acc, Reads (entryAt n c) acc) ∧
    ∀ x, Involved E.H body x → Reads (entryAt n x) (accountOf n' x) := by
  refine ⟨(Node.putEntry E.H c [7] newNode).2, newNode,
    ⟨1, BArr.zero 32, some ⟨d, [.extended ⟨[], a, 0, b, 0, 0, 0, 1, 1, 0, []⟩], []⟩⟩, _, .entry c [7] .new, .new, rfl, by simp, ?_, ?_⟩
  · have h := ((FReach.new (E := E)).raw.putEntry c [7]).2.entryAt
    rintro ⟨acc, hx⟩
    rw [h] at hx
    simp only [Tree.Spec.set, if_true] at hx
    rcases reads_type hx with e | e | e <;> revert e <;> decide
  · intro x hx
    have h := ((FReach.new (E := E)).raw.putEntry c [7]).2.entryAt
    have hxc : x ≠ c := by
      rcases hx with rfl | ⟨tx, ht, e⟩
      · exact hdc
      · rw [List.mem_singleton.mp ht] at e
        rcases e with e | e
        · rw [← e]; exact hac
        · rw [← e]; exact hbc
    rw [h, accountOf_new]
    simp only [Tree.Spec.set, hxc, if_false]
    refine .inl ⟨?_, rfl⟩
    have h0 : Raw E.H newNode fun _ => [] := ⟨Tree.newWorld_inv, .init⟩
    rw [h0.entryAt]

end Nimiq.Accounts
