import Verif.Wire.Model
import Verif.Beserial.Spec
/-!
# Specification vocabulary for contracts

Byte layouts of signature proofs and of contract creation data.
-/
namespace Nimiq.Accounts.Spec
open Beserial Beserial.Spec Wire

/-- The bytes of a signature proof: public key, Merkle path (branch count, branch bits, hashes), signature. -/
def proofBytes (s : SignatureProof) : Bytes :=
  s.publicKey.val ++ (s.merklePath.branches.len :: s.merklePath.branches.bits ++ (s.merklePath.hashes.map (·.val)).flatten) ++
    s.signature.val

/-- As many hashes as branches, and the branch bits fill the bytes their number asks for. -/
def WfProof (s : SignatureProof) : Prop :=
  s.merklePath.branches.bits.length = BitSet.size s.merklePath.branches.len ∧
  s.merklePath.hashes.length = s.merklePath.branches.len.toNat

/-- `b` is a signature proof whose signer address is `a`. -/
def ProofOf (H : Bytes → Hash32) (b : Bytes) (a : Addr) : Prop :=
  ∃ s, WfProof s ∧ b = proofBytes s ∧ s.signerAddress H = .ok a

/-- What a creation transaction with value `v` and these data makes: the contract, but for its balance. -/
inductive VestingData (v bal : UInt64) : Bytes → VestingAccount → Prop
  | short (owner : Addr) (step : UInt32) :
      VestingData v bal (owner.val ++ digits 4 step.toNat) ⟨bal, owner, 0, step, v, v⟩
  | medium (owner : Addr) (start step : UInt32) (amount : UInt64) :
      VestingData v bal (owner.val ++ digits 4 start.toNat ++ digits 4 step.toNat ++ digits 8 amount.toNat)
        ⟨bal, owner, start, step, amount, v⟩
  | long (owner : Addr) (start step : UInt32) (amount total : UInt64) :
      VestingData v bal (owner.val ++ digits 4 start.toNat ++ digits 4 step.toNat ++ digits 8 amount.toNat ++
        digits 8 total.toNat) ⟨bal, owner, start, step, amount, total⟩

/-- HTLC creation data: sender, recipient, hash, hash count (not 0), timeout. -/
inductive HTLCData (v bal : UInt64) : Bytes → HTLCAccount → Prop
  | mk (sender recipient : Addr) (hash : Hash) (count : UInt8) (timeout : UInt32) : count ≠ 0 →
      HTLCData v bal (sender.val ++ recipient.val ++ (hash.algorithm :: hash.bytes.val) ++ [count] ++
        digits 4 timeout.toNat) ⟨bal, sender, recipient, hash, count, timeout, v⟩

/-- The contract a transaction with creation flag makes. -/
def NewContract (t : ExtendedTx) (bal : UInt64) : Account → Prop
  | .basic _ => False
  | .vesting c => t.recipientType = 1 ∧ VestingData t.value bal t.data c
  | .htlc c => t.recipientType = 2 ∧ HTLCData t.value bal t.data c

/-- The three ways to spend from a hash time-locked contract. -/
inductive HTLCProof (H : Bytes → Hash32) (c : HTLCAccount) (height : UInt32) : Bytes → Prop
  | regular (depth : UInt8) (preImage : BArr 32) (p : Bytes) : height ≤ c.timeout → ProofOf H p c.recipient →
      HTLCProof H c height (1 :: c.hash.algorithm :: depth :: (c.hash.bytes.val ++ preImage.val ++ p))
  | early (p1 p2 : Bytes) : ProofOf H p1 c.recipient → ProofOf H p2 c.sender → HTLCProof H c height (2 :: (p1 ++ p2))
  | timeout (p : Bytes) : c.timeout < height → ProofOf H p c.sender → HTLCProof H c height (3 :: p)

end Nimiq.Accounts.Spec
