import Verif.Beserial.Width
import Verif.Wire.Misc
import Verif.Genesis.Model
/-!
# C142: messages, blocks, accounts and the genesis list on 32-bit platforms
-/
namespace Nimiq.Wire
open Nimiq.Beserial Nimiq.Genesis

/-- msg_types.go:95-105: the end of `UnmarshalMessage`, on a platform whose largest `int` is `max` -/
def finishMessageAt (max : Nat) (t : Ty) (prev : t.Val) (mk : t.Val → Msg) (buf : Bytes) : Out Msg :=
  match UnmarshalAt max t prev buf with
  | .ok v rest => if buf.length - rest.length ≠ buf.length then .err .notFullyRead else .ok (mk v)
  | .err e _ => .err e
  | .panic => .panic

/-- msg_types.go:55-105 `UnmarshalMessage`, on a platform whose largest `int` is `max` -/
def UnmarshalMessageAt (max : Nat) (msgType : UInt64) (buf : Bytes) : Out Msg :=
  if msgType = 0 then finishMessageAt max versionTy versionTy.zero .version buf
  else if msgType = 1 then finishMessageAt max invTy (newInv 1) .inv buf
  else if msgType = 2 then finishMessageAt max invTy (newInv 2) .inv buf
  else if msgType = 3 then finishMessageAt max invTy (newInv 3) .inv buf
  else if msgType = 4 then finishMessageAt max invTy (newInv 4) .inv buf
  else if msgType = 5 then finishMessageAt max getBlocksTy getBlocksTy.zero .getBlocks buf
  else if msgType = 6 then finishMessageAt max blockMsgTy blockMsgTy.zero .block buf
  else if msgType = 7 then finishMessageAt max headMsgTy headMsgTy.zero .header buf
  else if msgType = 8 then finishMessageAt max txMsgTy txMsgTy.zero .tx buf
  else if msgType = 9 then .panic
  else if msgType = 20 then finishMessageAt max addrTy addrTy.zero .addr buf
  else if msgType = 21 then finishMessageAt max getAddrTy getAddrTy.zero .getAddr buf
  else if msgType = 22 then finishMessageAt max (.custom ping) ⟨0, false⟩ .ping buf
  else if msgType = 23 then finishMessageAt max (.custom ping) ⟨0, true⟩ .ping buf
  else if msgType = 40 then .panic
  else if msgType = 60 then .panic
  else if msgType = 61 then finishMessageAt max headMsgTy headMsgTy.zero .head buf
  else if msgType = 90 then finishMessageAt max verAckTy verAckTy.zero .verAck buf
  else .err (.unknownMessage msgType)

/-- The types that package wire and package genesis hand to `Unmarshal`: messages, blocks and their parts, transactions and what
is in them, accounts, proofs, peer addresses. -/
def wireTypes : List Ty :=
  [versionTy, invTy, getBlocksTy, blockMsgTy, headMsgTy, txMsgTy, addrTy, getAddrTy, .custom ping, getTxReceiptsTy, getTxProofTy,
    verAckTy, blockTy, headerTy, bodyTy, accountPrunedTy, BasicTx.ty, ExtendedTx.ty, TxContent.ty, SignatureProof.ty,
    BasicAccount.ty, VestingAccount.ty, HTLCAccount.ty, PeerAddressHeader.ty, accountsProofTy, accountsTreeChunkTy, stakingTy,
    accountTy, accountListTy]

/-- All their lengths have one or two bytes. -/
theorem wireTypes_short : ∀ t ∈ wireTypes, Short t = true := by
  have h : wireTypes.all Short = true := by decide +kernel
  exact fun t ht => List.all_eq_true.mp h t ht

/-- C142, everything that package wire and package genesis decode: whatever the bytes and however many, the value, the bytes read
and the error are the same on 32-bit and on 64-bit platforms. -/
theorem C142_protocol : (∀ t ∈ wireTypes, ∀ (prev : t.Val) (data : Bytes), UnmarshalAt maxInt32 t prev data = Unmarshal t prev data) ∧
    ∀ (ty : UInt64) (buf : Bytes), UnmarshalMessageAt maxInt32 ty buf = UnmarshalMessage ty buf := by
  have key := fun t ht => C142_short_same t (wireTypes_short t ht)
  refine ⟨key, fun ty buf => ?_⟩
  have f : ∀ t ∈ wireTypes, ∀ (prev : t.Val) (mk : t.Val → Msg), finishMessageAt maxInt32 t prev mk buf = finishMessage t prev mk buf := by
    intro t ht prev mk
    unfold finishMessageAt finishMessage
    rw [key t ht]
    cases Unmarshal t prev buf <;> rfl
  unfold UnmarshalMessageAt UnmarshalMessage
  rw [f versionTy (by simp [wireTypes]), f invTy (by simp [wireTypes]), f invTy (by simp [wireTypes]),
    f invTy (by simp [wireTypes]), f invTy (by simp [wireTypes]), f getBlocksTy (by simp [wireTypes]),
    f blockMsgTy (by simp [wireTypes]), f headMsgTy (by simp [wireTypes]), f txMsgTy (by simp [wireTypes]),
    f addrTy (by simp [wireTypes]), f getAddrTy (by simp [wireTypes]), f (.custom ping) (by simp [wireTypes]) ⟨0, false⟩ .ping,
    f (.custom ping) (by simp [wireTypes]) ⟨0, true⟩ .ping, f headMsgTy (by simp [wireTypes]) headMsgTy.zero .head,
    f verAckTy (by simp [wireTypes])]

end Nimiq.Wire
