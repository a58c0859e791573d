import Verif.Accounts.Handmade
import Verif.Accounts.Witness
/-!
# C135: transactions of other types

`wire.Tx` is an exported interface with exported methods only, and `wire.WrapTx` is an exported struct around it: a program can
put transactions of its own type into a block. This is `Push` over such blocks.
-/
namespace Nimiq.Accounts
open Beserial Beserial.Spec Wire Spec Float64

/-- A value of the interface `wire.Tx` (tx.go:10-17), as far as `Push` looks at it: what `AsTxContent()`, `Amount()` and
`GetSender()` return, and the result of the type assertion `tx.(*ExtendedTx)` (`none`: it panics). The methods return the same
whenever they are called. `Push` calls no other method. -/
structure AnyTx where
  content : TxContent
  amount : UInt64 × UInt64
  sender : Addr
  extended : Option ExtendedTx

/-- The two types of the library: tx_basic.go, tx_extended.go. -/
def anyTx (H : Bytes → Hash32) (tx : Tx) : AnyTx :=
  ⟨tx.content H, tx.amount, (tx.getSender H).1, match tx with | .basic _ => none | .extended t => some t⟩

/-- block.go:31-36 `BlockBody` with such transactions -/
structure AnyBody where
  minerAddr : Addr
  txs : List AnyTx
  pruned : List (Addr × Option Account)

/-- block.go:11-28 `Block` with such a body -/
structure AnyBlock where
  height : UInt32
  accountsHash : Hash32
  body : Option AnyBody

/-- The block with every transaction exchanged. -/
def AnyBlock.with (b : AnyBlock) (f : AnyTx → Tx) : Block :=
  ⟨b.height, b.accountsHash, b.body.map fun x => ⟨x.minerAddr, x.txs.map f, x.pruned⟩⟩

/-- A block with transactions of the library. -/
def Block.any (H : Bytes → Hash32) (b : Block) : AnyBlock :=
  ⟨b.height, b.accountsHash, b.body.map fun x => ⟨x.minerAddr, x.txs.map (anyTx H), x.pruned⟩⟩

section
variable {σ : Type} (E : Env) (L : Ledger σ)

/-- account.go:129-136, 226-247, 323-401 `ApplyOutgoingTx`: a basic account asks for `Amount()`, the contracts for the
`*ExtendedTx` and nothing else -/
def outgoingAny (acc : Account) (tx : AnyTx) (height : UInt32) : Out Account :=
  match acc with
  | .basic a =>
    let amount := tx.amount.1 + tx.amount.2
    if amount > a.value then .err (.overspend a.value amount)
    else .ok (.basic ⟨a.value - amount⟩)
  | .vesting c =>
    match tx.extended with
    | none => .panic
    | some t => vestingOutgoing E c (.extended t) height
  | .htlc h =>
    match tx.extended with
    | none => .panic
    | some t => htlcOutgoing E h (.extended t) height

/-- account.go:139-142, 250-252, 404-406 `ApplyIncomingTx` -/
def incomingAny (acc : Account) (tx : AnyTx) (_height : UInt32) : Out Account :=
  match acc with
  | .basic a => .ok (.basic ⟨a.value + tx.amount.1⟩)
  | .vesting _ => .panic
  | .htlc _ => .panic

/-- account.go:167-223, 293-320 `Init`: it asks for the `*ExtendedTx` first of all -/
def initAny (typ : UInt8) (tx : AnyTx) (height : UInt32) (bal : UInt64) : Out Account :=
  match tx.extended with
  | none => .panic
  | some t => if typ = 1 then initVesting (.extended t) height bal else initHTLC (.extended t) height bal

/-- `for _, tx := range block.Body.Txs` with an early return on error -/
def forAny : List AnyTx → (AnyTx → M σ Unit) → M σ Unit
  | [], _ => return ()
  | tx :: txs, f => do
    f tx
    forAny txs f

/-- accounts.go:241-255 `pushTx` -/
def pushTxAny (address : Addr) (accType : UInt8) (op : Account → Out Account) : M σ Unit := do
  let account ← L.getAccount address
  if accType ≠ 0xFF ∧ accType ≠ account.type then M.throw (.typeMismatch accType account.type)
  else
    let newAccount ← M.lift (op account)
    L.putAccount address (some newAccount)

/-- accounts.go:210-239 `createContract` -/
def createContractAny (tx : AnyTx) (height : UInt32) : M σ Unit := do
  if tx.content.flags &&& 0x01 = 0 then M.panic
  else
    let acc ← L.getAccount tx.content.recipient
    if tx.content.recipientType = 0 then M.throw (.invalidForRecipient tx.content.recipient)
    else if tx.content.recipientType = 1 then
      let newAcc ← M.lift (initAny 1 tx height (balance acc))
      L.putAccount tx.content.recipient (some newAcc)
    else if tx.content.recipientType = 2 then
      let newAcc ← M.lift (initAny 2 tx height (balance acc))
      L.putAccount tx.content.recipient (some newAcc)
    else M.throw (.invalidForRecipient tx.content.recipient)

/-- accounts.go:170-193: the loop of `pruneAccounts` -/
def pruneLoopAny : List AnyTx → PruneMap → M σ PruneMap
  | [], pruned => return pruned
  | tx :: txs, pruned => do
    let sender ← L.getAccount tx.sender
    if isEmpty sender = false ∨ sender.type = 0 then pruneLoopAny txs pruned
    else
      match pruned.get tx.sender with
      | none => M.throw (.pruneMissing tx.sender)
      | some prunedAcc =>
        if accountEq prunedAcc (some sender) = false then M.throw (.pruneAltered tx.sender)
        else
          L.putAccount tx.sender none
          pruneLoopAny txs (pruned.del tx.sender)

/-- accounts.go:39-60, 101-208 `Push` -/
def pushAny (block : AnyBlock) : M σ Unit :=
  match block.body with
  | none => M.panic
  | some body => do
    forAny body.txs fun tx =>
      pushTxAny L tx.content.sender tx.content.senderType fun acc => outgoingAny E acc tx block.height
    forAny body.txs fun tx =>
      let recipientType := if tx.content.flags &&& 0x01 = 0 then tx.content.recipientType else 0xFF
      pushTxAny L tx.content.recipient recipientType fun acc => incomingAny acc tx block.height
    forAny body.txs fun tx =>
      if tx.content.flags &&& 0x01 ≠ 0 then createContractAny L tx block.height else return ()
    let pruned ← pruneLoopAny L body.txs (pruneMap body.pruned)
    if h : pruned.map (·.1) ≠ [] then M.throw (.pruneEarly (E.pick (pruned.map (·.1)) h).val)
    else
      let reward ← L.blockReward block.height
      let reward := body.txs.foldl (fun r tx => r + tx.amount.2) reward
      pushTx L body.minerAddr 0 (coinbase body.minerAddr reward block.height) block.height applyIncoming

end

/-- accounts.go:39-60 `Accounts.Push`, on blocks with transactions of any type -/
def PushAny (E : Env) (block : AnyBlock) : M Node Unit := pushAny E (nodeLedger E.H) block

/-! ## Specification -/

/-- The methods agree with each other. -/
def AnyTx.Honest (t : AnyTx) : Prop :=
  t.amount = (t.content.value, t.content.fee) ∧ t.sender = t.content.sender ∧
    ∀ x, t.extended = some x → t.content = ⟨x.data, x.sender, x.senderType, x.recipient, x.recipientType, x.value, x.fee,
      x.validityStartHeight, x.networkID, x.flags⟩

/-- The library's transaction with the same content; a transaction of another type gets some proof. -/
def AnyTx.asExtended (proof : AnyTx → Bytes) (t : AnyTx) : Tx :=
  match t.extended with
  | some x => .extended x
  | none => .extended ⟨t.content.data, t.content.sender, t.content.senderType, t.content.recipient, t.content.recipientType,
      t.content.value, t.content.fee, t.content.validityStartHeight, t.content.networkID, t.content.flags, proof t⟩

/-! ## Proofs -/

section
variable {σ : Type} {E : Env} {L : Ledger σ} {α β : Type} {P : Prop}

/-- The first computation does what the second does, or (only if `P`) panics. -/
def PanicOr (P : Prop) (x y : M σ α) : Prop := ∀ s, P ∧ (x s).1 = .panic ∨ x s = y s

theorem PanicOr.refl (x : M σ α) : PanicOr P x x := fun _ => .inr rfl

theorem PanicOr.bind {x y : M σ α} {f g : α → M σ β} (h : PanicOr P x y) (hf : ∀ a, PanicOr P (f a) (g a)) :
    PanicOr P (x >>= f) (y >>= g) := by
  intro s
  simp only [M.bind_eq]
  rcases h s with ⟨hP, h⟩ | h
  · rcases hx : x s with ⟨o, s'⟩
    rw [hx] at h; simp only at h; subst h
    exact .inl ⟨hP, rfl⟩
  · rw [h]
    rcases y s with ⟨o, s'⟩
    cases o with
    | ok a => exact hf a s'
    | err e => exact .inr rfl
    | panic => exact .inr rfl

theorem PanicOr.lift {x y : Out α} (h : P ∧ x = .panic ∨ x = y) : PanicOr P (M.lift x : M σ α) (M.lift y) := by
  intro s
  rcases h with ⟨hP, rfl⟩ | rfl
  · exact .inl ⟨hP, rfl⟩
  · exact .inr rfl

theorem PanicOr.pushTx {address : Addr} {accType : UInt8} {tx : Tx} {height : UInt32} {op : Account → Out Account}
    {op' : AccountOp} (h : ∀ acc, accType = 0xFF ∨ accType = acc.type → P ∧ op acc = .panic ∨ op acc = op' acc tx height) :
    PanicOr P (pushTxAny L address accType op) (Accounts.pushTx L address accType tx height op') := by
  unfold pushTxAny Accounts.pushTx
  refine .bind (.refl _) fun acc => ?_
  by_cases hc : accType ≠ 0xFF ∧ accType ≠ acc.type
  · rw [if_pos hc, if_pos hc]; exact .refl _
  · rw [if_neg hc, if_neg hc]
    refine .bind (.lift (h acc ?_)) fun _ => .refl _
    by_cases h1 : accType = 0xFF
    · exact .inl h1
    · exact .inr (Decidable.byContradiction fun h2 => hc ⟨h1, h2⟩)

theorem PanicOr.forAny {f : AnyTx → M σ Unit} {g : Tx → M σ Unit} {k : AnyTx → Tx} : ∀ {txs : List AnyTx},
    (∀ t ∈ txs, PanicOr P (f t) (g (k t))) → PanicOr P (Accounts.forAny txs f) (forTxs (txs.map k) g)
  | [], _ => .refl _
  | t :: ts, h => .bind (h t (List.mem_cons_self ..)) fun _ => forAny fun x hx => h x (List.mem_cons_of_mem _ hx)

variable {proof : AnyTx → Bytes}

theorem Honest.content {t : AnyTx} (h : t.Honest) (H : Bytes → Hash32) : (t.asExtended proof).content H = t.content := by
  unfold AnyTx.asExtended
  cases hx : t.extended with
  | none => rfl
  | some x => exact (h.2.2 x hx).symm

theorem Honest.amount {t : AnyTx} (h : t.Honest) : (t.asExtended proof).amount = t.amount := by
  rw [h.1]
  unfold AnyTx.asExtended
  cases hx : t.extended with
  | none => rfl
  | some x => rw [h.2.2 x hx]; rfl

theorem Honest.sender {t : AnyTx} (h : t.Honest) (H : Bytes → Hash32) : ((t.asExtended proof).getSender H).1 = t.sender := by
  rw [h.2.1]
  unfold AnyTx.asExtended
  cases hx : t.extended with
  | none => rfl
  | some x => rw [h.2.2 x hx]; rfl

theorem Honest.outgoing {t : AnyTx} (h : t.Honest) (acc : Account) (height : UInt32) (hP : acc.type ≠ 0 → t.extended = none → P) :
    P ∧ outgoingAny E acc t height = .panic ∨ outgoingAny E acc t height = applyOutgoing E acc (t.asExtended proof) height := by
  cases acc with
  | basic a => right; simp only [outgoingAny, applyOutgoing, basicOutgoing, Honest.amount h]
  | vesting c =>
    simp only [outgoingAny, applyOutgoing]
    cases hx : t.extended with
    | none => exact .inl ⟨hP (by show (1 : UInt8) ≠ 0; decide) hx, rfl⟩
    | some x => right; simp only [AnyTx.asExtended, hx]
  | htlc c =>
    simp only [outgoingAny, applyOutgoing]
    cases hx : t.extended with
    | none => exact .inl ⟨hP (by show (2 : UInt8) ≠ 0; decide) hx, rfl⟩
    | some x => right; simp only [AnyTx.asExtended, hx]

theorem Honest.incoming {t : AnyTx} (h : t.Honest) (acc : Account) (height : UInt32) :
    incomingAny acc t height = applyIncoming acc (t.asExtended proof) height := by
  cases acc with
  | basic a => simp only [incomingAny, applyIncoming, Honest.amount h]
  | vesting c => rfl
  | htlc c => rfl

theorem Honest.create {t : AnyTx} (h : t.Honest) (height : UInt32) (hP : t.extended = none → P) :
    PanicOr P (createContractAny L t height) (createContract E L (t.asExtended proof) height) := by
  unfold createContractAny createContract
  simp only [Honest.content h]
  by_cases hf : t.content.flags &&& 0x01 = 0
  · rw [if_pos hf, if_pos hf]; exact .refl _
  rw [if_neg hf, if_neg hf]
  refine .bind (.refl _) fun acc => ?_
  by_cases h0 : t.content.recipientType = 0
  · rw [if_pos h0, if_pos h0]; exact .refl _
  rw [if_neg h0, if_neg h0]
  by_cases h1 : t.content.recipientType = 1
  · rw [if_pos h1, if_pos h1]
    refine .bind (.lift ?_) fun _ => .refl _
    unfold initAny
    cases hx : t.extended with
    | none => exact .inl ⟨hP hx, rfl⟩
    | some x => right; simp only [AnyTx.asExtended, hx, if_true]
  rw [if_neg h1, if_neg h1]
  by_cases h2 : t.content.recipientType = 2
  · rw [if_pos h2, if_pos h2]
    refine .bind (.lift ?_) fun _ => .refl _
    unfold initAny
    cases hx : t.extended with
    | none => exact .inl ⟨hP hx, rfl⟩
    | some x => right; simp only [AnyTx.asExtended, hx]; rfl
  rw [if_neg h2, if_neg h2]; exact .refl _

theorem pruneLoopAny_eq : ∀ (txs : List AnyTx) (pm : PruneMap), (∀ t ∈ txs, t.Honest) →
    pruneLoopAny L txs pm = pruneLoop E L (txs.map (AnyTx.asExtended proof)) pm := by
  intro txs
  induction txs with
  | nil => intros; rfl
  | cons t ts ih =>
    intro pm h
    have ih' := fun pm => ih pm fun x hx => h x (List.mem_cons_of_mem _ hx)
    simp only [List.map_cons, pruneLoopAny, pruneLoop, ih', Honest.sender (h t (List.mem_cons_self ..))]
    rfl

theorem addFees_any : ∀ (txs : List AnyTx) (r : UInt64), (∀ t ∈ txs, t.Honest) →
    txs.foldl (fun r tx => r + tx.amount.2) r = addFees r (txs.map (AnyTx.asExtended proof)) := by
  intro txs
  induction txs with
  | nil => intros; rfl
  | cons t ts ih =>
    intro r h
    simp only [List.map_cons, List.foldl_cons, addFees, Honest.amount (h t (List.mem_cons_self ..))]
    exact ih _ fun x hx => h x (List.mem_cons_of_mem _ hx)

theorem pushAny_or (block : AnyBlock) (h : ∀ body, block.body = some body → ∀ t ∈ body.txs, t.Honest)
    (hP : ∀ body, block.body = some body → ∀ t ∈ body.txs, t.extended = none →
      P ∨ t.content.senderType = 0 ∧ t.content.flags &&& 0x01 = 0) :
    PanicOr P (pushAny E L block) (push E L (block.with (AnyTx.asExtended proof))) := by
  unfold pushAny push AnyBlock.with
  cases hb : block.body with
  | none => exact .refl _
  | some body =>
    have h := h body hb
    have hP := hP body hb
    simp only [Option.map_some]
    refine .bind ?_ fun _ => .bind ?_ fun _ => .bind ?_ fun _ => ?_
    · refine .forAny fun t ht => ?_
      simp only [Honest.content (h t ht)]
      refine .pushTx fun acc ha => Honest.outgoing (h t ht) acc _ fun h1 h2 => ?_
      rcases hP t ht h2 with h3 | ⟨h3, -⟩
      · exact h3
      · rw [h3] at ha
        rcases ha with ha | ha
        · cases ha
        · exact absurd ha.symm h1
    · refine .forAny fun t ht => ?_
      simp only [Honest.content (h t ht)]
      exact .pushTx fun acc _ => .inr (Honest.incoming (h t ht) acc _)
    · refine .forAny fun t ht => ?_
      simp only [Honest.content (h t ht)]
      split
      · rename_i hf
        exact Honest.create (h t ht) _ fun h2 => (hP t ht h2).resolve_right fun h3 => hf h3.2
      · exact .refl _
    · rw [pruneLoopAny_eq (E := E) (proof := proof) body.txs _ h]
      unfold pruneAccounts
      rw [M.assoc]
      refine .bind (.refl _) fun pruned => ?_
      by_cases hp : pruned.map (·.1) ≠ []
      · rw [dif_pos hp, dif_pos hp]; exact .refl _
      · rw [dif_neg hp, dif_neg hp]
        unfold pushInherents
        refine .bind (.refl _) fun r => ?_
        rw [addFees_any (proof := proof) body.txs _ h]
        exact .refl _

theorem panic_left {x : M σ α} {f : α → M σ β} {s : σ} (h : (x s).1 = .panic) : ((x >>= f) s).1 = .panic := by
  rw [M.bind_eq]
  rcases hx : x s with ⟨o, s'⟩
  rw [hx] at h; simp only at h; subst h; rfl

theorem panic_right {x y : M σ α} {f : α → M σ β} {s s' : σ} {a : α} (h : PanicOr P x y) (hy : y s = (.ok a, s'))
    (hf : (f a s').1 = .panic) : ((x >>= f) s).1 = .panic := by
  rcases h s with ⟨-, h⟩ | h
  · exact panic_left h
  · rw [M.bind_eq, h, hy]; exact hf

/-- If the second loop gets through and one step of the first panics where that of the second does not, the first panics. -/
theorem forAny_panic {f : AnyTx → M σ Unit} {g : Tx → M σ Unit} {k : AnyTx → Tx} : ∀ {txs : List AnyTx} {s s' : σ},
    (∀ t ∈ txs, PanicOr P (f t) (g (k t))) → forTxs (txs.map k) g s = (.ok (), s') →
    (∃ t ∈ txs, ∀ s s', g (k t) s = (.ok (), s') → (f t s).1 = .panic) → (Accounts.forAny txs f s).1 = .panic
  | [], _, _, _, _, ⟨_, ht, _⟩ => by cases ht
  | t :: ts, s, s', h, hg, ⟨x, hx, hp⟩ => by
    simp only [List.map_cons, forTxs, M.bind_eq] at hg
    rcases hy : g (k t) s with ⟨o, s1⟩
    rw [hy] at hg
    cases o with
    | err e => cases hg
    | panic => cases hg
    | ok u =>
      rw [Accounts.forAny]
      rcases List.mem_cons.mp hx with rfl | hx
      · exact panic_left (hp _ _ hy)
      · exact panic_right (h t (List.mem_cons_self ..)) hy
          (forAny_panic (fun y hy => h y (List.mem_cons_of_mem _ hy)) hg ⟨x, hx, hp⟩)

theorem pushAny_panics (block : AnyBlock) {body : AnyBody} (hb : block.body = some body) (h : ∀ t ∈ body.txs, t.Honest)
    {s s' : σ} (hok : push E L (block.with (AnyTx.asExtended proof)) s = (.ok (), s')) {t : AnyTx} (ht : t ∈ body.txs)
    (hx : t.extended = none) (hc : t.content.senderType ≠ 0 ∧ t.content.senderType ≠ 0xFF ∨ t.content.flags &&& 0x01 ≠ 0) :
    (pushAny E L block s).1 = .panic := by
  unfold push AnyBlock.with at hok
  unfold pushAny
  rw [hb] at hok ⊢
  simp only [Option.map_some] at hok ⊢
  have e1 : ∀ t ∈ body.txs, PanicOr True (pushTxAny L t.content.sender t.content.senderType fun acc => outgoingAny E acc t block.height)
      ((fun tx => pushTx L (tx.content E.H).sender (tx.content E.H).senderType tx block.height (applyOutgoing E)) (t.asExtended proof)) := by
    intro t ht
    simp only [Honest.content (h t ht)]
    exact .pushTx fun acc ha => Honest.outgoing (h t ht) acc _ fun _ _ => trivial
  have e2 : ∀ t ∈ body.txs, PanicOr True (pushTxAny L t.content.recipient (if t.content.flags &&& 0x01 = 0 then t.content.recipientType else 0xFF)
        fun acc => incomingAny acc t block.height)
      ((fun tx => pushTx L (tx.content E.H).recipient (if (tx.content E.H).flags &&& 0x01 = 0 then (tx.content E.H).recipientType else 0xFF)
        tx block.height applyIncoming) (t.asExtended proof)) := by
    intro t ht
    simp only [Honest.content (h t ht)]
    exact .pushTx fun acc _ => .inr (Honest.incoming (h t ht) acc _)
  have e3 : ∀ t ∈ body.txs, PanicOr True (if t.content.flags &&& 0x01 ≠ 0 then createContractAny L t block.height else return ())
      ((fun tx => if (tx.content E.H).flags &&& 0x01 ≠ 0 then createContract E L tx block.height else return ()) (t.asExtended proof)) := by
    intro t ht
    simp only [Honest.content (h t ht)]
    split
    · exact Honest.create (h t ht) _ fun _ => trivial
    · exact .refl _
  rw [M.bind_eq] at hok
  rcases h1 : pushSenders E L block.height ⟨body.minerAddr, body.txs.map (AnyTx.asExtended proof), body.pruned⟩ s with ⟨o, s1⟩
  rw [h1] at hok
  cases o with
  | err e => cases hok
  | panic => cases hok
  | ok u =>
  simp only [M.bind_eq] at hok
  rcases hc with ⟨hc, hc'⟩ | hc
  · refine panic_left (forAny_panic e1 h1 ⟨t, ht, fun r r' hr => ?_⟩)
    simp only [Honest.content (h t ht)] at hr
    unfold pushTx at hr
    unfold pushTxAny
    rw [M.bind_eq] at hr ⊢
    rcases hg : L.getAccount t.content.sender r with ⟨o, r1⟩
    rw [hg] at hr
    cases o with
    | err e => cases hr
    | panic => cases hr
    | ok acc =>
      simp only at hr ⊢
      by_cases hty : t.content.senderType ≠ 0xFF ∧ t.content.senderType ≠ acc.type
      · rw [if_pos hty] at hr; cases hr
      · rw [if_neg hty]
        have : acc.type = t.content.senderType := Decidable.byContradiction fun e => hty ⟨hc', Ne.symm e⟩
        rw [← this] at hc
        cases acc with
        | basic a => exact absurd rfl hc
        | vesting a => simp only [outgoingAny, hx]; rfl
        | htlc a => simp only [outgoingAny, hx]; rfl
  rcases h2 : pushRecipients E L block.height ⟨body.minerAddr, body.txs.map (AnyTx.asExtended proof), body.pruned⟩ s1 with ⟨o, s2⟩
  rw [h2] at hok
  cases o with
  | err e => cases hok
  | panic => cases hok
  | ok u2 =>
  simp only at hok
  rcases h3 : createContracts E L block.height ⟨body.minerAddr, body.txs.map (AnyTx.asExtended proof), body.pruned⟩ s2 with ⟨o, s3⟩
  rw [h3] at hok
  cases o with
  | err e => cases hok
  | panic => cases hok
  | ok u3 =>
  refine panic_right (.forAny e1) h1 (panic_right (.forAny e2) h2 (panic_left (forAny_panic e3 h3 ⟨t, ht, fun r r' hr => ?_⟩)))
  simp only [Honest.content (h t ht)] at hr
  rw [if_pos hc] at hr ⊢
  unfold createContract at hr
  unfold createContractAny
  simp only [Honest.content (h t ht)] at hr
  rw [if_neg hc] at hr ⊢
  rw [M.bind_eq] at hr ⊢
  rcases hg : L.getAccount t.content.recipient r with ⟨o, r1⟩
  rw [hg] at hr
  cases o with
  | err e => cases hr
  | panic => cases hr
  | ok acc =>
    simp only at hr ⊢
    by_cases h0 : t.content.recipientType = 0
    · rw [if_pos h0] at hr; cases hr
    rw [if_neg h0] at hr ⊢
    by_cases hr1 : t.content.recipientType = 1
    · rw [if_pos hr1]; simp only [initAny, hx]; rfl
    rw [if_neg hr1] at hr ⊢
    by_cases hr2 : t.content.recipientType = 2
    · rw [if_pos hr2]; simp only [initAny, hx]; rfl
    rw [if_neg hr2] at hr; cases hr

theorem forAny_own {f : AnyTx → M σ Unit} {g : Tx → M σ Unit} {k : Tx → AnyTx} (h : ∀ t, f (k t) = g t) : ∀ txs : List Tx,
    Accounts.forAny (txs.map k) f = forTxs txs g
  | [] => rfl
  | t :: ts => by simp only [List.map_cons, Accounts.forAny, forTxs, h, forAny_own h ts]

theorem pruneLoopAny_own : ∀ (txs : List Tx) (pm : PruneMap), pruneLoopAny L (txs.map (anyTx E.H)) pm = pruneLoop E L txs pm := by
  intro txs
  induction txs with
  | nil => intros; rfl
  | cons t ts ih =>
    intro pm
    simp only [List.map_cons, pruneLoopAny, pruneLoop, ih]
    rfl

theorem pushAny_own (block : Block) : pushAny E L (block.any E.H) = push E L block := by
  unfold pushAny push Block.any
  cases hb : block.body with
  | none => rfl
  | some body =>
    simp only [Option.map_some]
    have hop : ∀ acc t, outgoingAny E acc (anyTx E.H t) block.height = applyOutgoing E acc t block.height := by
      intro acc t
      cases acc <;> cases t <;> rfl
    have hin : ∀ acc t, incomingAny acc (anyTx E.H t) block.height = applyIncoming acc t block.height := by
      intro acc t
      cases acc <;> rfl
    have hinit1 : ∀ t b, initAny 1 (anyTx E.H t) block.height b = initVesting t block.height b := by
      intro t b; cases t <;> rfl
    have hinit2 : ∀ t b, initAny 2 (anyTx E.H t) block.height b = initHTLC t block.height b := by
      intro t b; cases t <;> rfl
    have hfees : ∀ (txs : List Tx) (r : UInt64), (txs.map (anyTx E.H)).foldl (fun r tx => r + tx.amount.2) r = addFees r txs := by
      intro txs
      induction txs with
      | nil => intros; rfl
      | cons t ts ih => intro r; exact ih _
    unfold pushSenders pushRecipients createContracts pruneAccounts pushInherents
    simp only [M.assoc, hfees, pruneLoopAny_own]
    congr 1
    · refine forAny_own (fun t => ?_) _
      show (pushTxAny L _ _ fun acc => outgoingAny E acc (anyTx E.H t) block.height) = _
      simp only [hop]; rfl
    funext _
    congr 1
    · refine forAny_own (fun t => ?_) _
      show (pushTxAny L _ _ fun acc => incomingAny acc (anyTx E.H t) block.height) = _
      simp only [hin]; rfl
    funext _
    congr 1
    · refine forAny_own (fun t => ?_) _
      unfold createContractAny createContract
      simp only [hinit1, hinit2]; rfl
    funext _
    congr 1
    funext pruned
    by_cases hp : pruned.map (·.1) ≠ []
    · rw [dif_pos hp, dif_pos hp]; rfl
    · rw [dif_neg hp, dif_neg hp]; rfl

end

/-! ## The theorems -/

/-- The library's own transactions are the case all other properties are about. -/
theorem C135_own (E : Env) (block : Block) (n : Node) : PushAny E (block.any E.H) n = Push E block n := by
  unfold PushAny Push
  rw [pushAny_own]

/-- Their methods agree with each other. -/
theorem C135_own_honest (H : Bytes → Hash32) (tx : Tx) : (anyTx H tx).Honest := by
  cases tx with
  | basic t => exact ⟨rfl, rfl, fun x h => by cases h⟩
  | extended t => exact ⟨rfl, rfl, fun x h => by cases h; rfl⟩

/-- **C135**, transfers: a transaction of another type whose methods agree, sent from a basic account and not creating a
contract, has the same effect as the library's extended transaction with the same content, whatever its proof. -/
theorem C135_transfers_partial (E : Env) (block : AnyBlock) (body : AnyBody) (hb : block.body = some body)
    (h : ∀ t ∈ body.txs, t.Honest) (proof : AnyTx → Bytes)
    (hf : ∀ t ∈ body.txs, t.extended = none → t.content.senderType = 0 ∧ t.content.flags &&& 0x01 = 0) (n : Node) :
    PushAny E block n = Push E (block.with (AnyTx.asExtended proof)) n := by
  have := pushAny_or (E := E) (L := nodeLedger E.H) (P := False) (proof := proof) block
    (fun b hb' => by rw [hb] at hb'; cases hb'; exact h)
    (fun b hb' t ht hx => by rw [hb] at hb'; cases hb'; exact .inr (hf t ht hx)) n
  exact this.resolve_left fun h => h.1

/-- **C135**, any block: a transaction of another type whose methods agree has the same effect as the library's extended
transaction with the same content, or `Push` panics. -/
theorem C135_same_or_panic_partial (E : Env) (block : AnyBlock) (body : AnyBody) (hb : block.body = some body)
    (h : ∀ t ∈ body.txs, t.Honest) (proof : AnyTx → Bytes) (n : Node) :
    (PushAny E block n).1 = .panic ∨ PushAny E block n = Push E (block.with (AnyTx.asExtended proof)) n :=
  (pushAny_or (E := E) (L := nodeLedger E.H) (P := True) (proof := proof) block
    (fun b hb' => by rw [hb] at hb'; cases hb'; exact h) (fun _ _ _ _ _ => .inl trivial) n).imp (·.2) id

/-- **C135 is violated**: where the library's transaction would be accepted, one of another type with the same content makes `Push`
panic as soon as it is to spend from a contract or to create one. -/
theorem C135_contracts_violated (E : Env) (block : AnyBlock) (body : AnyBody) (hb : block.body = some body)
    (h : ∀ t ∈ body.txs, t.Honest) (proof : AnyTx → Bytes) (n n' : Node)
    (hok : Push E (block.with (AnyTx.asExtended proof)) n = (.ok (), n')) (t : AnyTx) (ht : t ∈ body.txs)
    (hx : t.extended = none) (hc : t.content.senderType = 1 ∨ t.content.senderType = 2 ∨ t.content.flags &&& 0x01 ≠ 0) :
    (PushAny E block n).1 = .panic := by
  refine pushAny_panics block hb h hok ht hx ?_
  rcases hc with e | e | e
  · exact .inl ⟨by rw [e]; decide, by rw [e]; decide⟩
  · exact .inl ⟨by rw [e]; decide, by rw [e]; decide⟩
  · exact .inr e

/-- Blocks that meet the hypotheses: every accepted block with its transactions behind another type, giving them back their
proofs. -/
def hideTx (H : Bytes → Hash32) (tx : Tx) : AnyTx := { anyTx H tx with extended := none }

theorem hide_honest (H : Bytes → Hash32) (tx : Tx) : (hideTx H tx).Honest := by
  cases tx <;> exact ⟨rfl, rfl, fun x h => by cases h⟩

/-- The block of `Witness.lean`, with all its transactions of another type. -/
def hiddenBlock (E : Env) : AnyBlock :=
  ⟨11, BArr.zero 32, some ⟨Witness.addr 3, (Witness.body E).txs.map (hideTx E.H), (Witness.body E).pruned⟩⟩

/-- Its proofs. -/
def hiddenProof (t : AnyTx) : Bytes :=
  if t.sender = Witness.addr 4 then Witness.proof else if t.sender = Witness.addr 5 then 3 :: Witness.proof else []

theorem hidden_with (E : Env) : (hiddenBlock E).with (AnyTx.asExtended hiddenProof) = Witness.block E := by
  have h1 : (hideTx E.H Witness.t1).asExtended hiddenProof = Witness.t1 := by
    simp only [AnyTx.asExtended, hideTx, hiddenProof, anyTx, Tx.content, Tx.getSender, Witness.t1, Witness.addr_inj]; rfl
  have h2 : (hideTx E.H Witness.t2).asExtended hiddenProof = Witness.t2 := by
    simp only [AnyTx.asExtended, hideTx, hiddenProof, anyTx, Tx.content, Tx.getSender, Witness.t2, Witness.addr_inj]; rfl
  have h3 : (hideTx E.H Witness.t3).asExtended hiddenProof = Witness.t3 := by
    simp only [AnyTx.asExtended, hideTx, hiddenProof, anyTx, Tx.content, Tx.getSender, Witness.t3, Witness.addr_inj]; rfl
  have h4 : (hideTx E.H Witness.t4).asExtended hiddenProof = Witness.t4 := by
    simp only [AnyTx.asExtended, hideTx, hiddenProof, anyTx, Tx.content, Tx.getSender, Witness.t4, Witness.addr_inj]; rfl
  simp only [AnyBlock.with, hiddenBlock, Witness.block, Witness.body, List.map_cons, List.map_nil, Option.map_some, h1, h2, h3, h4]

/-- It is accepted with the library's transactions, and panics with the others. -/
example (E : Env) : (PushAny E (hiddenBlock E) (Witness.node E)).1 = .panic :=
  C135_contracts_violated E _ _ rfl (by
    intro t ht
    obtain ⟨x, -, rfl⟩ := List.mem_map.mp ht
    exact hide_honest E.H x) hiddenProof _ _ (by rw [hidden_with]; exact Witness.rich_ok E) (hideTx E.H Witness.t2)
    (by simp [Witness.body]) rfl (.inl rfl)

/-- A block with one transfer of another type, to which the theorem on transfers applies. -/
example (E : Env) (proof : AnyTx → Bytes) :
    let b : AnyBlock := ⟨11, BArr.zero 32, some ⟨Witness.addr 3, [hideTx E.H Witness.t1], []⟩⟩
    PushAny E b (Witness.node E) = Push E (b.with (AnyTx.asExtended proof)) (Witness.node E) :=
  C135_transfers_partial E _ _ rfl (by
    intro t ht
    rw [List.mem_singleton.mp ht]
    exact hide_honest E.H _) proof (by
    intro t ht _
    rw [List.mem_singleton.mp ht]
    exact ⟨rfl, by show (0 : UInt8) &&& 1 = 0; decide⟩) _

end Nimiq.Accounts
