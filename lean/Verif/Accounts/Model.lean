import Verif.Accounts.Float
import Verif.Policy.Model
import Verif.Tree.Model
import Verif.Wire.Model
/-!
# Model of `wire/account.go` (behaviour of accounts) and `accounts/accounts.go`

A call on an `Accounts` value may change the state and end in success, an error or a panic: `M σ α`.  The code of
accounts.go is written once over the three operations it uses (`Ledger`): `GetAccount`, `PutAccount` and
`policy.BlockReward`.  The real instance `nodeLedger` runs them on the tree model and the reward cache; the proofs also
instantiate them with a plain map from addresses to accounts (`Accounts/Abstract.lean`), and a simulation theorem relates
the two.

Parameters (`Env`): the hash function; which key a Go map iteration yields first; what an out-of-range float to integer
conversion yields (both are left open by the Go specification).

Simplifications: the transactions of a block are not nil (a nil `Tx` panics; decoded blocks contain none); error texts and
`%w` wrapping are dropped; accounts are values (the code never mutates an account in place, it copies).
-/
namespace Nimiq.Accounts
open Beserial Wire Float64

/-- What the Go specification leaves open, and the hash function. -/
structure Env where
  /-- Blake2b-256 -/
  H : Bytes → Hash32
  /-- the first key of `range m` for a map with these keys -/
  pick : (l : List Addr) → l ≠ [] → { a : Addr // a ∈ l }
  /-- `uint64(x)` for a float `x ≥ 2^64` -/
  conv : ℚ → UInt64

/-! ## account.go -/

/-- account.go:112-114, 155-157, 281-283 `Balance` -/
def balance : Account → UInt64
  | .basic a => a.value
  | .vesting a => a.value
  | .htlc a => a.value

/-- account.go:120-122, 163-165, 289-291 `IsEmpty` -/
def isEmpty : Account → Bool
  | .basic a => a.value == 0
  | .vesting a => a.value == 0
  | .htlc a => a.value == 0

/-- account.go:72 `InitialAccount` -/
def initialAccount : Account := .basic ⟨0⟩

/-- account.go:76-94 `AccountEq`: Go's `==` on the structs; the `default` case is unreachable -/
def accountEq : Option Account → Option Account → Bool
  | none, _ => false
  | some _, none => false
  | some a1, some a2 =>
    if a1.type ≠ a2.type then false
    else
      match a1, a2 with
      | .basic x, .basic y => x == y
      | .vesting x, .vesting y => x == y
      | .htlc x, .htlc y => x == y
      | _, _ => false

/-- account.go:254-265 `amountUnlocked`; `height-c.VestingStart` is `uint32` arithmetic -/
def amountUnlocked (E : Env) (c : VestingAccount) (height : UInt32) : UInt64 :=
  if height ≤ c.vestingStart then 0
  else if c.vestingStepBlocks = 0 ∨ c.vestingStepAmount = 0 then c.value
  else
    let progress := fl (fl (height - c.vestingStart).toNat / fl c.vestingStepBlocks.toNat)
    let x := fl (progress * fl c.vestingStepAmount.toNat)
    if x < 2 ^ 64 then UInt64.ofNat ⌊x⌋.toNat else E.conv x

/-- account.go:172-175, 186-191, 202-208: the three layouts of vesting creation data -/
def vestingParams24 : Ty := .struct (.cons none (.byteArr 20) (.cons none (.num .u32) .nil))
def vestingParams36 : Ty := .struct
  (.cons none (.byteArr 20) (.cons none (.num .u32) (.cons none (.num .u32) (.cons none (.num .u64) .nil))))
def vestingParams44 : Ty := .struct
  (.cons none (.byteArr 20) (.cons none (.num .u32) (.cons none (.num .u32) (.cons none (.num .u64)
    (.cons none (.num .u64) .nil)))))

/-- `tx.(*ExtendedTx)` -/
def asExtendedPtr : Tx → Out ExtendedTx
  | .basic _ => .panic
  | .extended t => .ok t

/-- account.go:167-223 `VestingAccount.Init` -/
def initVesting (tx : Tx) (_height : UInt32) (bal : UInt64) : Out Account := do
  let ext ← asExtendedPtr tx
  if ext.data.length = 24 then
    let p ← UnmarshalFull vestingParams24 vestingParams24.zero ext.data
    return .vesting ⟨bal, p.1, 0, p.2.1, ext.value, ext.value⟩
  else if ext.data.length = 36 then
    let p ← UnmarshalFull vestingParams36 vestingParams36.zero ext.data
    return .vesting ⟨bal, p.1, p.2.1, p.2.2.1, p.2.2.2.1, ext.value⟩
  else if ext.data.length = 44 then
    let p ← UnmarshalFull vestingParams44 vestingParams44.zero ext.data
    return .vesting ⟨bal, p.1, p.2.1, p.2.2.1, p.2.2.2.1, p.2.2.2.2.1⟩
  else .err .badVestingData

/-- account.go:296-302: HTLC creation data: Sender, Recipient, Hash, HashCount, Timeout -/
def htlcParams : Ty := .struct
  (.cons none (.byteArr 20) (.cons none (.byteArr 20) (.cons none (.custom Wire.hash) (.cons none (.num .u8)
    (.cons none (.num .u32) .nil)))))

/-- account.go:293-320 `HTLCAccount.Init` -/
def initHTLC (tx : Tx) (_height : UInt32) (prevBalance : UInt64) : Out Account := do
  let ext ← asExtendedPtr tx
  let p ← UnmarshalFull htlcParams htlcParams.zero ext.data
  if p.2.2.2.1 = (0 : UInt8) then .err .badHashCount
  else return .htlc ⟨prevBalance, p.1, p.2.1, p.2.2.1, p.2.2.2.1, p.2.2.2.2.1, ext.value⟩

/-- account.go:129-136 `BasicAccount.ApplyOutgoingTx` -/
def basicOutgoing (a : BasicAccount) (tx : Tx) : Out Account :=
  let amount := tx.amount.1 + tx.amount.2
  if amount > a.value then .err (.overspend a.value amount)
  else .ok (.basic ⟨a.value - amount⟩)

/-- account.go:226-247 `VestingAccount.ApplyOutgoingTx` -/
def vestingOutgoing (E : Env) (c : VestingAccount) (tx : Tx) (height : UInt32) : Out Account := do
  let unlocked := amountUnlocked E c height
  let extTx ← asExtendedPtr tx
  if extTx.value > unlocked then .err (.overspend unlocked extTx.value)
  else
    let newValue := c.value - extTx.value
    let v ← UnmarshalFull SignatureProof.ty SignatureProof.ty.zero extTx.proof
    let signer ← (SignatureProof.ofVal v).signerAddress E.H
    if signer ≠ c.owner then .err .badSignature
    else return .vesting { c with value := newValue }

/-- account.go:343-349: Algorithm, HashDepth, HashRoot, PreImage, Proof -/
def htlcRegularTy : Ty := .struct
  (.cons none (.num .u8) (.cons none (.num .u8) (.cons none (.byteArr 32) (.cons none (.byteArr 32)
    (.cons none SignatureProof.ty .nil)))))
/-- account.go:364-367: RecipientProof, SenderProof -/
def htlcEarlyTy : Ty := .struct (.cons none SignatureProof.ty (.cons none SignatureProof.ty .nil))
/-- account.go:384-386: Proof -/
def htlcTimeoutTy : Ty := .struct (.cons none SignatureProof.ty .nil)

/-- account.go:323-401 `HTLCAccount.ApplyOutgoingTx` -/
def htlcOutgoing (E : Env) (h : HTLCAccount) (tx : Tx) (height : UInt32) : Out Account := do
  let ext ← asExtendedPtr tx
  if ext.value > h.value then .err (.overspend h.value ext.value)
  else
    match ext.proof with
    | [] => .err .missingProof
    | proofType :: proof =>
      if proofType = 1 then
        if h.timeout < height then .err .htlcExpired
        else
          let p ← UnmarshalFull htlcRegularTy htlcRegularTy.zero proof
          if p.1 ≠ h.hash.algorithm ∨ p.2.2.1 ≠ h.hash.bytes then .err .htlcHashMismatch
          else
            let signer ← (SignatureProof.ofVal p.2.2.2.2.1).signerAddress E.H
            if signer ≠ h.recipient then .err .badSignature
            else return .htlc { h with value := h.value - ext.value }
      else if proofType = 2 then
        let p ← UnmarshalFull htlcEarlyTy htlcEarlyTy.zero proof
        let signer ← (SignatureProof.ofVal p.1).signerAddress E.H
        if signer ≠ h.recipient then .err .badSignature
        else
          let signer2 ← (SignatureProof.ofVal p.2.1).signerAddress E.H
          if signer2 ≠ h.sender then .err .badSignature
          else return .htlc { h with value := h.value - ext.value }
      else if proofType = 3 then
        if h.timeout ≥ height then .err .htlcNotExpired
        else
          let p ← UnmarshalFull htlcTimeoutTy htlcTimeoutTy.zero proof
          let signer ← (SignatureProof.ofVal p.1).signerAddress E.H
          if signer ≠ h.sender then .err .badSignature
          else return .htlc { h with value := h.value - ext.value }
      else .err (.badProofType proofType)

/-- accounts.go:257 `AccountOp`, applied to account, transaction and height -/
abbrev AccountOp := Account → Tx → UInt32 → Out Account

/-- account.go `ApplyOutgoingTx`, by dynamic dispatch -/
def applyOutgoing (E : Env) : AccountOp
  | .basic a, tx, _ => basicOutgoing a tx
  | .vesting a, tx, height => vestingOutgoing E a tx height
  | .htlc a, tx, height => htlcOutgoing E a tx height

/-- account.go:139-142, 250-252, 404-406 `ApplyIncomingTx`: contracts panic -/
def applyIncoming : AccountOp
  | .basic a, tx, _ => .ok (.basic ⟨a.value + tx.amount.1⟩)
  | .vesting _, _, _ => .panic
  | .htlc _, _, _ => .panic

/-! ## Stateful calls -/

/-- A call that may change a state `σ`; after an error or a panic the state is what the call left behind. -/
def M (σ α : Type) := σ → Out α × σ

namespace M
variable {σ α β : Type}

def bind (x : M σ α) (f : α → M σ β) : M σ β := fun s =>
  match x s with
  | (.ok a, s) => f a s
  | (.err e, s) => (.err e, s)
  | (.panic, s) => (.panic, s)

instance : Monad (M σ) where
  pure a := fun s => (.ok a, s)
  bind := bind

/-- A computation without effect. -/
def lift (x : Out α) : M σ α := fun s => (x, s)
def throw (e : Err) : M σ α := fun s => (.err e, s)
def panic : M σ α := fun s => (.panic, s)

end M

/-- The operations accounts.go is written over. -/
structure Ledger (σ : Type) where
  getAccount : Addr → M σ Account
  putAccount : Addr → Option Account → M σ Unit
  blockReward : UInt32 → M σ UInt64

/-- block.go:31-36 `BlockBody`, the fields that matter here -/
structure Body where
  minerAddr : Addr
  txs : List Tx
  pruned : List (Addr × Option Account)

/-- block.go:11-28 `Block`, the fields that matter here -/
structure Block where
  height : UInt32
  accountsHash : Hash32
  body : Option Body

section
variable {σ : Type} (E : Env) (L : Ledger σ)

/-- `for _, tx := range block.Body.Txs` with an early return on error -/
def forTxs : List Tx → (Tx → M σ Unit) → M σ Unit
  | [], _ => return ()
  | tx :: txs, f => do
    f tx
    forTxs txs f

/-- accounts.go:241-255 `pushTx` -/
def pushTx (address : Addr) (accType : UInt8) (tx : Tx) (height : UInt32) (op : AccountOp) : M σ Unit := do
  let account ← L.getAccount address
  if accType ≠ 0xFF ∧ accType ≠ account.type then M.throw (.typeMismatch accType account.type)
  else
    let newAccount ← M.lift (op account tx height)
    L.putAccount address (some newAccount)

/-- accounts.go:101-109 `pushSenders`, with the operation Push passes (accounts.go:40-42) -/
def pushSenders (height : UInt32) (body : Body) : M σ Unit :=
  forTxs body.txs fun tx =>
    let content := tx.content E.H
    pushTx L content.sender content.senderType tx height (applyOutgoing E)

/-- accounts.go:111-123 `pushRecipients`, with the operation Push passes (accounts.go:45-47) -/
def pushRecipients (height : UInt32) (body : Body) : M σ Unit :=
  forTxs body.txs fun tx =>
    let content := tx.content E.H
    let recipientType := if content.flags &&& 0x01 = 0 then content.recipientType else 0xFF
    pushTx L content.recipient recipientType tx height applyIncoming

/-- accounts.go:210-239 `createContract` -/
def createContract (tx : Tx) (height : UInt32) : M σ Unit := do
  let content := tx.content E.H
  if content.flags &&& 0x01 = 0 then M.panic
  else
    let acc ← L.getAccount content.recipient
    if content.recipientType = 0 then M.throw (.invalidForRecipient content.recipient)
    else if content.recipientType = 1 then
      let newAcc ← M.lift (initVesting tx height (balance acc))
      L.putAccount content.recipient (some newAcc)
    else if content.recipientType = 2 then
      let newAcc ← M.lift (initHTLC tx height (balance acc))
      L.putAccount content.recipient (some newAcc)
    else M.throw (.invalidForRecipient content.recipient)

/-- accounts.go:125-135 `createContracts` -/
def createContracts (height : UInt32) (body : Body) : M σ Unit :=
  forTxs body.txs fun tx =>
    let content := tx.content E.H
    if content.flags &&& 0x01 ≠ 0 then createContract E L tx height else return ()

/-- A Go `map[[20]byte]wire.Account`: an association list without duplicate keys. -/
abbrev PruneMap := List (Addr × Option Account)
/-- map lookup -/
def PruneMap.get (m : PruneMap) (k : Addr) : Option (Option Account) := (m.find? fun e => e.1 = k).map (·.2)
/-- `delete(m, k)` -/
def PruneMap.del (m : PruneMap) (k : Addr) : PruneMap := m.filter fun e => e.1 ≠ k
/-- `m[k] = v` -/
def PruneMap.put (m : PruneMap) (k : Addr) (v : Option Account) : PruneMap := (k, v) :: PruneMap.del m k

/-- accounts.go:164-167 -/
def pruneMap (pruned : List (Addr × Option Account)) : PruneMap :=
  pruned.foldl (fun m e => m.put e.1 e.2) []

/-- accounts.go:170-193: the loop over the transactions; the result is what is left of the map -/
def pruneLoop : List Tx → PruneMap → M σ PruneMap
  | [], pruned => return pruned
  | tx :: txs, pruned => do
    let senderAddr := (tx.getSender E.H).1
    let sender ← L.getAccount senderAddr
    if isEmpty sender = false ∨ sender.type = 0 then pruneLoop txs pruned
    else
      match pruned.get senderAddr with
      | none => M.throw (.pruneMissing senderAddr)
      | some prunedAcc =>
        if accountEq prunedAcc (some sender) = false then M.throw (.pruneAltered senderAddr)
        else
          L.putAccount senderAddr none
          pruneLoop txs (pruned.del senderAddr)

/-- accounts.go:161-208 `pruneAccounts` -/
def pruneAccounts (body : Body) : M σ Unit := do
  let pruned ← pruneLoop E L body.txs (pruneMap body.pruned)
  if h : pruned.map (·.1) ≠ [] then M.throw (.pruneEarly (E.pick (pruned.map (·.1)) h).val)
  else return ()

/-- accounts.go:140-143: the sum of the fees on top of the block reward -/
def addFees (reward : UInt64) (txs : List Tx) : UInt64 := txs.foldl (fun r tx => r + tx.amount.2) reward

/-- accounts.go:144-148 -/
def coinbase (miner : Addr) (reward : UInt64) (height : UInt32) : Tx :=
  .basic ⟨BArr.zero 32, miner, reward, 0, height, 0, BArr.zero 64⟩

/-- accounts.go:137-153 `pushInherents` -/
def pushInherents (height : UInt32) (body : Body) : M σ Unit := do
  let reward ← L.blockReward height
  let reward := addFees reward body.txs
  pushTx L body.minerAddr 0 (coinbase body.minerAddr reward height) height applyIncoming

/-- accounts.go:39-60 `Push`; a nil body panics in `pushSenders` -/
def push (block : Block) : M σ Unit :=
  match block.body with
  | none => M.panic
  | some body => do
    pushSenders E L block.height body
    pushRecipients E L block.height body
    createContracts E L block.height body
    pruneAccounts E L body
    pushInherents L block.height body

end

/-! ## The real instance -/

/-- The tree and the global reward cache of package policy. -/
structure Node where
  tree : Tree.World
  cache : List UInt64

/-- accounts.go:69-85 `GetAccount`; a panic inside the tree would be a panic here (it does not happen, C54) -/
def Node.getAccount (addr : Addr) : M Node Account := fun n =>
  match Tree.getEntry addr n.tree with
  | none => (.panic, n)
  | some (entry, tree) =>
    let n := { n with tree := tree }
    let buf := entry.getD []
    if buf.length ≤ 0 then (.ok initialAccount, n)
    else
      match WrapAccount.dec buf with
      | .ok (k, some acc) => if k ≠ buf.length then (.panic, n) else (.ok acc, n)
      | .ok (_, none) => (.panic, n)
      | .err _ => (.panic, n)
      | .panic => (.panic, n)

/-- `a.Tree.PutEntry(addr, buf)` -/
def Node.putEntry (H : Bytes → Hash32) (addr : Addr) (buf : Bytes) : M Node Unit := fun n =>
  match Tree.putEntry H addr buf n.tree with
  | none => (.panic, n)
  | some (_, tree) => (.ok (), { n with tree := tree })

/-- accounts.go:87-99 `PutAccount` -/
def Node.putAccount (H : Bytes → Hash32) (addr : Addr) : Option Account → M Node Unit
  | none => Node.putEntry H addr []
  | some acc =>
    if acc.type = 0 ∧ isEmpty acc = true then Node.putEntry H addr []
    else
      match WrapAccount.enc (some acc) [] with
      | .ok buf => Node.putEntry H addr buf
      | .err _ => M.panic
      | .panic => M.panic

/-- `policy.BlockReward(height)` with the global cache -/
def Node.blockReward (height : UInt32) : M Node UInt64 := fun n =>
  match Policy.blockReward n.cache height with
  | .ok (r, cache) => (.ok r, { n with cache := cache })
  | .err e => (.err e, n)
  | .panic => (.panic, n)

/-- accounts.go works on the tree. -/
def nodeLedger (H : Bytes → Hash32) : Ledger Node where
  getAccount := Node.getAccount
  putAccount := Node.putAccount H
  blockReward := Node.blockReward

/-- accounts.go:39-60 `Accounts.Push` -/
def Push (E : Env) (block : Block) : M Node Unit := push E (nodeLedger E.H) block

/-- `a.Tree.Hash()` -/
def Node.hash (H : Bytes → Hash32) : M Node Hash32 := fun n =>
  match Tree.hash H n.tree with
  | none => (.panic, n)
  | some (h, tree) => (.ok h, { n with tree := tree })

/-- A fresh node: `NewAccounts` on a tree over `NewMemStore()`, in a fresh process. -/
def newNode : Node := ⟨Tree.newWorld, Policy.initCache⟩

/-! ## From decoded blocks -/

/-- The fields of a decoded block; `none` if a transaction is nil (no decoded one is) -/
def Body.ofVal (v : bodyTy.Val) : Option Body :=
  (v.2.2.1.mapM id).map fun txs => ⟨v.1, txs, v.2.2.2.1.map fun p => (p.1, p.2.1)⟩

/-- The header has 9 fields: AccountsHash is the fifth, Height the seventh. -/
def Block.ofVal (v : blockTy.Val) : Option Block :=
  match v.2.2.1 with
  | none => some ⟨v.1.2.2.2.2.2.2.1, v.1.2.2.2.2.1, none⟩
  | some b => (Body.ofVal b).map fun b => ⟨v.1.2.2.2.2.2.2.1, v.1.2.2.2.2.1, some b⟩

end Nimiq.Accounts
