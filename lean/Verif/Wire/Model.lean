import Verif.Beserial.Spec
import Verif.Beserial.AllocModel
/-!
# Model of package `wire`: types, custom codecs, messages

Plain Go structs are types of the universe `Beserial.Ty`; the field names are in the comments.  Types with
`UnmarshalBESerial`/`MarshalBESerial` are `Codec`s.  Transactions, accounts, signature proofs and peer addresses, whose
fields other properties talk about, are Lean structures with the obvious translation to the universe.

`Codec.gsize` is the generic walk of size.go over the struct fields (it never calls `SizeBESerial`, so the
`SizeBESerial` methods are dead code and not modelled).  `Codec.spec` and `Codec.min` are specification, not code.
-/
namespace Nimiq.Wire
open Beserial

/-! ## Struct tags used in the package -/

def tagU8 : Option (List Char) := some ['l', 'e', 'n', '_', 't', 'a', 'g', '=', 'u', 'i', 'n', 't', '8']
def tagU16 : Option (List Char) := some ['l', 'e', 'n', '_', 't', 'a', 'g', '=', 'u', 'i', 'n', 't', '1', '6']
def tagOptional : Option (List Char) := some ['o', 'p', 't', 'i', 'o', 'n', 'a', 'l']

/-- `n, err = beserial.Unmarshal(d, v)` in a custom decoder that has already read `n0` bytes; `v` points to `prev`. -/
def unmarshalAt (t : Ty) (prev : t.Val) (n0 : Nat) (d : Bytes) : Out (Nat × t.Val) :=
  match Unmarshal t prev d with
  | .ok v rest => .ok (n0 + (d.length - rest.length), v)
  | .err e _ => .err e
  | .panic => .panic

/-! ## bitset.go -/

/-- bitset.go:9-12 -/
structure BitSet where
  len : UInt8
  bits : Bytes
  deriving DecidableEq

/-- bitset.go:22 `size := (bs.Len + 7) / 8`, in `uint8` arithmetic -/
def BitSet.size (len : UInt8) : Nat := ((len + 7) / 8).toNat

/-- bitset.go:14-29 -/
def BitSet.dec : Bytes → Out (Nat × BitSet)
  | [] => .err .eof
  | l :: b =>
    if b.length < BitSet.size l then .err .eof
    else .ok (1 + BitSet.size l, ⟨l, b.take (BitSet.size l)⟩)

/-- bitset.go:31-35 -/
def BitSet.enc (bs : BitSet) (b : Bytes) : Out Bytes := .ok ((b ++ [bs.len]) ++ bs.bits)

/-- bitset.go:41-43 `bit`: indexing out of range panics -/
def BitSet.bit (bs : BitSet) (i : UInt8) : Out Bool :=
  match bs.bits[(i / 8).toNat]? with
  | none => .panic
  | some x => .ok (x &&& (0x80 >>> (i % 8)) != 0)

/-- bitset.go:23 `make([]byte, size)`, before the length check -/
def BitSet.alloc : Bytes → Nat
  | [] => 0
  | l :: _ => BitSet.size l

/-- bitset.go:24-27: the copying -/
def BitSet.work : Bytes → Nat
  | [] => 0
  | l :: b => if b.length < BitSet.size l then 0 else BitSet.size l

/-- A `BitSet` as a field: `Bits` has no length tag, so the generic size fails. -/
def bitSet : Codec where
  α := BitSet
  zero := ⟨0, []⟩
  dec _ d := BitSet.dec d
  enc := BitSet.enc
  gsize _ := .err .noLenTag
  spec bs := if bs.bits.length = BitSet.size bs.len then some (bs.len :: bs.bits) else none
  min := 1
  mem := ⟨32, 8, BitSet.alloc, 31, 0, BitSet.work, 0, 1⟩

/-! ## hash.go -/

/-- hash.go:8-11 -/
structure Hash where
  algorithm : UInt8
  bytes : Hash32
  deriving DecidableEq

/-- hash.go:19-39. The generic walk sees `struct { uint8; [32]byte }`, which has the right size. -/
def hash : Codec where
  α := Hash
  zero := ⟨0, BArr.zero 32⟩
  dec _ d :=
    match d with
    | [] => .err .eof
    | algo :: b => if b.length < 32 then .err .eof else .ok (1 + 32, ⟨algo, BArr.copy 32 b⟩)
  enc h b := .ok ((b ++ [h.algorithm]) ++ h.bytes.val)
  gsize _ := .ok (1 + 32)
  spec h := some (h.algorithm :: h.bytes.val)
  min := 33
  mem := ⟨33, 1, fun _ => 0, 0, 0, fun d => if d.length < 33 then 0 else 32, 0, 1⟩

/-! ## signature.go -/

/-- signature.go:22-25 -/
structure MerklePath where
  branches : BitSet
  hashes : List Hash32
  deriving DecidableEq

/-- signature.go:37-44: reading `n` hashes; `none` is the EOF error -/
def readHashes : Nat → Bytes → Option (List Hash32 × Bytes)
  | 0, b => some ([], b)
  | n + 1, b =>
    if b.length < 32 then none
    else match readHashes n (b.drop 32) with
      | none => none
      | some (hs, r) => some (BArr.copy 32 b :: hs, r)

/-- signature.go:27-46 -/
def MerklePath.dec (orig : Bytes) : Out (Nat × MerklePath) :=
  match BitSet.dec orig with
  | .ok (n, branches) =>
    match readHashes branches.len.toNat (orig.drop n) with
    | none => .err .eof
    | some (hs, b) => .ok (orig.length - b.length, ⟨branches, hs⟩)
  | .err e => .err e
  | .panic => .panic

/-- signature.go:48-58 -/
def MerklePath.enc (mp : MerklePath) (b : Bytes) : Out Bytes :=
  match mp.branches.enc b with
  | .ok b => .ok (mp.hashes.foldl (fun b h => b ++ h.val) b)
  | .err e => .err e
  | .panic => .panic

/-- signature.go:36 `make([][32]byte, mp.Branches.Len)`, before the hashes are read -/
def MerklePath.alloc (orig : Bytes) : Nat :=
  BitSet.alloc orig + match BitSet.dec orig with
    | .ok (_, branches) => 32 * branches.len.toNat
    | _ => 0

/-- signature.go:37-44: one step for a round of the loop, and 32 for the copying -/
def readHashesWork : Nat → Bytes → Nat
  | 0, _ => 0
  | n + 1, b => if b.length < 32 then 1 else 33 + readHashesWork n (b.drop 32)

/-- signature.go:27-46 -/
def MerklePath.work (orig : Bytes) : Nat :=
  BitSet.work orig + match BitSet.dec orig with
    | .ok (n, branches) => readHashesWork branches.len.toNat (orig.drop n)
    | _ => 0

/-- MerklePath as a field -/
def merklePath : Codec where
  α := MerklePath
  zero := ⟨⟨0, []⟩, []⟩
  dec _ d := MerklePath.dec d
  enc := MerklePath.enc
  gsize _ := .err .noLenTag
  spec mp := if mp.branches.bits.length = BitSet.size mp.branches.len ∧ mp.hashes.length = mp.branches.len.toNat then
      some (mp.branches.len :: mp.branches.bits ++ (mp.hashes.map (·.val)).flatten) else none
  min := 1
  mem := ⟨56, 8, MerklePath.alloc, 31 + 32 * 255, 0, MerklePath.work, 1, 2⟩

/-- signature.go:69-83 `ComputeRoot`: the loop, from index `i`; `uint8(i)` truncates -/
def computeRootLoop (H : Bytes → Hash32) (br : BitSet) : Nat → Hash32 → List Hash32 → Out Hash32
  | _, root, [] => .ok root
  | i, root, hash :: hs =>
    match br.bit (UInt8.ofNat i) with
    | .ok true => computeRootLoop H br (i + 1) (H (hash.val ++ root.val)) hs
    | .ok false => computeRootLoop H br (i + 1) (H (root.val ++ hash.val)) hs
    | .err e => .err e
    | .panic => .panic

/-- signature.go:69-83 -/
def MerklePath.computeRoot (H : Bytes → Hash32) (mp : MerklePath) (leafValue : Bytes) : Out Hash32 :=
  computeRootLoop H mp.branches 0 (H leafValue) mp.hashes

/-- signature.go:10-14 -/
structure SignatureProof where
  publicKey : BArr 32
  merklePath : MerklePath
  signature : BArr 64
  deriving DecidableEq

def SignatureProof.ty : Ty :=
  .struct (.cons none (.byteArr 32) (.cons none (.custom Wire.merklePath) (.cons none (.byteArr 64) .nil)))
def SignatureProof.toVal (s : SignatureProof) : SignatureProof.ty.Val := (s.publicKey, s.merklePath, s.signature, ())
def SignatureProof.ofVal (v : SignatureProof.ty.Val) : SignatureProof := ⟨v.1, v.2.1, v.2.2.1⟩

/-- signature.go:16-20 -/
def SignatureProof.signerAddress (H : Bytes → Hash32) (s : SignatureProof) : Out Addr :=
  match s.merklePath.computeRoot H s.publicKey.val with
  | .ok root => .ok (BArr.copy 20 root.val)
  | .err e => .err e
  | .panic => .panic

/-- account.go:414-418 `PublicKeyToAddress` -/
def publicKeyToAddress (H : Bytes → Hash32) (pub : BArr 32) : Addr := BArr.copy 20 ((H pub.val).val.take 20)

/-! ## Transactions: tx.go, tx_basic.go, tx_extended.go -/

/-- tx_basic.go:4-12 -/
structure BasicTx where
  senderPubKey : BArr 32
  recipient : Addr
  value : UInt64
  fee : UInt64
  validityStartHeight : UInt32
  networkID : UInt8
  signature : BArr 64
  deriving DecidableEq

def BasicTx.ty : Ty := .struct
  (.cons none (.byteArr 32) (.cons none (.byteArr 20) (.cons none (.num .u64) (.cons none (.num .u64)
    (.cons none (.num .u32) (.cons none (.num .u8) (.cons none (.byteArr 64) .nil)))))))
def BasicTx.toVal (t : BasicTx) : BasicTx.ty.Val :=
  (t.senderPubKey, t.recipient, t.value, t.fee, t.validityStartHeight, t.networkID, t.signature, ())
def BasicTx.ofVal (v : BasicTx.ty.Val) : BasicTx :=
  ⟨v.1, v.2.1, v.2.2.1, v.2.2.2.1, v.2.2.2.2.1, v.2.2.2.2.2.1, v.2.2.2.2.2.2.1⟩

/-- tx_extended.go:5-17 -/
structure ExtendedTx where
  data : Bytes
  sender : Addr
  senderType : UInt8
  recipient : Addr
  recipientType : UInt8
  value : UInt64
  fee : UInt64
  validityStartHeight : UInt32
  networkID : UInt8
  flags : UInt8
  proof : Bytes
  deriving DecidableEq

def ExtendedTx.ty : Ty := .struct
  (.cons tagU16 .byteSlice (.cons none (.byteArr 20) (.cons none (.num .u8) (.cons none (.byteArr 20)
    (.cons none (.num .u8) (.cons none (.num .u64) (.cons none (.num .u64) (.cons none (.num .u32)
      (.cons none (.num .u8) (.cons none (.num .u8) (.cons tagU16 .byteSlice .nil)))))))))))
def ExtendedTx.toVal (t : ExtendedTx) : ExtendedTx.ty.Val :=
  (t.data, t.sender, t.senderType, t.recipient, t.recipientType, t.value, t.fee, t.validityStartHeight, t.networkID,
    t.flags, t.proof, ())
def ExtendedTx.ofVal (v : ExtendedTx.ty.Val) : ExtendedTx :=
  ⟨v.1, v.2.1, v.2.2.1, v.2.2.2.1, v.2.2.2.2.1, v.2.2.2.2.2.1, v.2.2.2.2.2.2.1, v.2.2.2.2.2.2.2.1,
    v.2.2.2.2.2.2.2.2.1, v.2.2.2.2.2.2.2.2.2.1, v.2.2.2.2.2.2.2.2.2.2.1⟩

/-- The two implementations of interface `Tx` (tx.go:10-17). -/
inductive Tx where
  | basic (t : BasicTx)
  | extended (t : ExtendedTx)
  deriving DecidableEq

/-- tx_basic.go:15-17, tx_extended.go:20-22 `Type` -/
def Tx.type : Tx → UInt8
  | .basic _ => 0
  | .extended _ => 1

/-- tx.go:37-57 `WrapTx.UnmarshalBESerial` -/
def WrapTx.dec : Bytes → Out (Nat × Option Tx)
  | [] => .err .eof
  | txType :: buf =>
    if txType = 0 then
      match unmarshalAt BasicTx.ty BasicTx.ty.zero 1 buf with
      | .ok (n, v) => .ok (n, some (.basic (BasicTx.ofVal v)))
      | .err e => .err e
      | .panic => .panic
    else if txType = 1 then
      match unmarshalAt ExtendedTx.ty ExtendedTx.ty.zero 1 buf with
      | .ok (n, v) => .ok (n, some (.extended (ExtendedTx.ofVal v)))
      | .err e => .err e
      | .panic => .panic
    else .err (.badType txType)

/-- tx.go:60-63 `WrapTx.MarshalBESerial`: a nil `Tx` panics in `Type()` -/
def WrapTx.enc : Option Tx → Bytes → Out Bytes
  | none, _ => .panic
  | some (.basic t), b => Marshal (b ++ [(Tx.basic t).type]) BasicTx.ty t.toVal
  | some (.extended t), b => Marshal (b ++ [(Tx.extended t).type]) ExtendedTx.ty t.toVal

/-- tx.go:45-54: `new(BasicTx)`, `new(ExtendedTx)` and what decoding it takes -/
def WrapTx.alloc : Bytes → Nat
  | [] => 0
  | txType :: buf =>
    if txType = 0 then BasicTx.ty.size + unmarshalAlloc BasicTx.ty BasicTx.ty.zero buf
    else if txType = 1 then ExtendedTx.ty.size + unmarshalAlloc ExtendedTx.ty ExtendedTx.ty.zero buf
    else 0

/-- tx.go:37-57 -/
def WrapTx.work : Bytes → Nat
  | [] => 0
  | txType :: buf =>
    if txType = 0 then unmarshalWork BasicTx.ty BasicTx.ty.zero buf
    else if txType = 1 then unmarshalWork ExtendedTx.ty ExtendedTx.ty.zero buf
    else 0

/-- tx.go:20-22 `WrapTx`: the interface in it has no generic size -/
def wrapTx : Codec where
  α := Option Tx
  zero := none
  dec _ d := WrapTx.dec d
  enc := WrapTx.enc
  gsize _ := .err .cannotMarshal
  spec
    | none => none
    | some (.basic t) => (Beserial.Spec.enc BasicTx.ty {} t.toVal).map (0 :: ·)
    | some (.extended t) => (Beserial.Spec.enc ExtendedTx.ty {} t.toVal).map (1 :: ·)
  min := 1
  mem := ⟨16, 8, WrapTx.alloc, 144, 1, WrapTx.work, 12, 1⟩

/-- tx.go:77-88 -/
structure TxContent where
  data : Bytes
  sender : Addr
  senderType : UInt8
  recipient : Addr
  recipientType : UInt8
  value : UInt64
  fee : UInt64
  validityStartHeight : UInt32
  networkID : UInt8
  flags : UInt8
  deriving DecidableEq

def TxContent.ty : Ty := .struct
  (.cons tagU16 .byteSlice (.cons none (.byteArr 20) (.cons none (.num .u8) (.cons none (.byteArr 20)
    (.cons none (.num .u8) (.cons none (.num .u64) (.cons none (.num .u64) (.cons none (.num .u32)
      (.cons none (.num .u8) (.cons none (.num .u8) .nil))))))))))
def TxContent.toVal (t : TxContent) : TxContent.ty.Val :=
  (t.data, t.sender, t.senderType, t.recipient, t.recipientType, t.value, t.fee, t.validityStartHeight, t.networkID,
    t.flags, ())

/-- tx_basic.go:41-54, tx_extended.go:34-47 `AsTxContent` -/
def Tx.content (H : Bytes → Hash32) : Tx → TxContent
  | .basic t => ⟨[], publicKeyToAddress H t.senderPubKey, 0, t.recipient, 0, t.value, t.fee, t.validityStartHeight,
      t.networkID, 0⟩
  | .extended t => ⟨t.data, t.sender, t.senderType, t.recipient, t.recipientType, t.value, t.fee, t.validityStartHeight,
      t.networkID, t.flags⟩

/-- tx_basic.go:24-38, tx_extended.go:29-31 `AsExtendedTx` -/
def Tx.asExtended (H : Bytes → Hash32) : Tx → ExtendedTx
  | .basic t => ⟨[], publicKeyToAddress H t.senderPubKey, 0, t.recipient, 0, t.value, t.fee, t.validityStartHeight,
      t.networkID, 0, t.signature.val⟩
  | .extended t => t

/-- tx_basic.go:19-21, tx_extended.go:24-26 `Amount` -/
def Tx.amount : Tx → UInt64 × UInt64
  | .basic t => (t.value, t.fee)
  | .extended t => (t.value, t.fee)

/-- tx_basic.go:56-61, tx_extended.go:49-51 `GetSender` -/
def Tx.getSender (H : Bytes → Hash32) : Tx → Addr × UInt8
  | .basic t => (publicKeyToAddress H t.senderPubKey, 0)
  | .extended t => (t.sender, t.senderType)

/-- tx_basic.go:63-65, tx_extended.go:53-55 `GetRecipient` -/
def Tx.getRecipient : Tx → Addr × UInt8
  | .basic t => (t.recipient, 0)
  | .extended t => (t.recipient, t.recipientType)

/-! ## Accounts: account.go (the codec part) -/

/-- account.go:105-107 -/
structure BasicAccount where
  value : UInt64
  deriving DecidableEq

def BasicAccount.ty : Ty := .struct (.cons none (.num .u64) .nil)
def BasicAccount.toVal (a : BasicAccount) : BasicAccount.ty.Val := (a.value, ())
def BasicAccount.ofVal (v : BasicAccount.ty.Val) : BasicAccount := ⟨v.1⟩

/-- account.go:143-150 -/
structure VestingAccount where
  value : UInt64
  owner : Addr
  vestingStart : UInt32
  vestingStepBlocks : UInt32
  vestingStepAmount : UInt64
  vestingTotalAmount : UInt64
  deriving DecidableEq

def VestingAccount.ty : Ty := .struct
  (.cons none (.num .u64) (.cons none (.byteArr 20) (.cons none (.num .u32) (.cons none (.num .u32)
    (.cons none (.num .u64) (.cons none (.num .u64) .nil))))))
def VestingAccount.toVal (a : VestingAccount) : VestingAccount.ty.Val :=
  (a.value, a.owner, a.vestingStart, a.vestingStepBlocks, a.vestingStepAmount, a.vestingTotalAmount, ())
def VestingAccount.ofVal (v : VestingAccount.ty.Val) : VestingAccount :=
  ⟨v.1, v.2.1, v.2.2.1, v.2.2.2.1, v.2.2.2.2.1, v.2.2.2.2.2.1⟩

/-- account.go:268-276 -/
structure HTLCAccount where
  value : UInt64
  sender : Addr
  recipient : Addr
  hash : Hash
  hashCount : UInt8
  timeout : UInt32
  totalAmount : UInt64
  deriving DecidableEq

def HTLCAccount.ty : Ty := .struct
  (.cons none (.num .u64) (.cons none (.byteArr 20) (.cons none (.byteArr 20) (.cons none (.custom Wire.hash)
    (.cons none (.num .u8) (.cons none (.num .u32) (.cons none (.num .u64) .nil)))))))
def HTLCAccount.toVal (a : HTLCAccount) : HTLCAccount.ty.Val :=
  (a.value, a.sender, a.recipient, a.hash, a.hashCount, a.timeout, a.totalAmount, ())
def HTLCAccount.ofVal (v : HTLCAccount.ty.Val) : HTLCAccount :=
  ⟨v.1, v.2.1, v.2.2.1, v.2.2.2.1, v.2.2.2.2.1, v.2.2.2.2.2.1, v.2.2.2.2.2.2.1⟩

/-- The three implementations of interface `Account`. -/
inductive Account where
  | basic (a : BasicAccount)
  | vesting (a : VestingAccount)
  | htlc (a : HTLCAccount)
  deriving DecidableEq

/-- account.go:113-115, 156-158, 282-284 `Type` -/
def Account.type : Account → UInt8
  | .basic _ => 0
  | .vesting _ => 1
  | .htlc _ => 2

/-- account.go:38-60 `WrapAccount.UnmarshalBESerial` -/
def WrapAccount.dec : Bytes → Out (Nat × Option Account)
  | [] => .err .eof
  | accType :: buf =>
    if accType = 0 then
      match unmarshalAt BasicAccount.ty BasicAccount.ty.zero 1 buf with
      | .ok (n, v) => .ok (n, some (.basic (BasicAccount.ofVal v)))
      | .err e => .err e
      | .panic => .panic
    else if accType = 1 then
      match unmarshalAt VestingAccount.ty VestingAccount.ty.zero 1 buf with
      | .ok (n, v) => .ok (n, some (.vesting (VestingAccount.ofVal v)))
      | .err e => .err e
      | .panic => .panic
    else if accType = 2 then
      match unmarshalAt HTLCAccount.ty HTLCAccount.ty.zero 1 buf with
      | .ok (n, v) => .ok (n, some (.htlc (HTLCAccount.ofVal v)))
      | .err e => .err e
      | .panic => .panic
    else .err (.badType accType)

/-- account.go:62-65 `WrapAccount.MarshalBESerial` -/
def WrapAccount.enc : Option Account → Bytes → Out Bytes
  | none, _ => .panic
  | some (.basic a), b => Marshal (b ++ [(Account.basic a).type]) BasicAccount.ty a.toVal
  | some (.vesting a), b => Marshal (b ++ [(Account.vesting a).type]) VestingAccount.ty a.toVal
  | some (.htlc a), b => Marshal (b ++ [(Account.htlc a).type]) HTLCAccount.ty a.toVal

/-- account.go:45-57: `new(BasicAccount)` and so on, and what decoding it takes -/
def WrapAccount.alloc : Bytes → Nat
  | [] => 0
  | accType :: buf =>
    if accType = 0 then BasicAccount.ty.size + unmarshalAlloc BasicAccount.ty BasicAccount.ty.zero buf
    else if accType = 1 then VestingAccount.ty.size + unmarshalAlloc VestingAccount.ty VestingAccount.ty.zero buf
    else if accType = 2 then HTLCAccount.ty.size + unmarshalAlloc HTLCAccount.ty HTLCAccount.ty.zero buf
    else 0

/-- account.go:37-60 -/
def WrapAccount.work : Bytes → Nat
  | [] => 0
  | accType :: buf =>
    if accType = 0 then unmarshalWork BasicAccount.ty BasicAccount.ty.zero buf
    else if accType = 1 then unmarshalWork VestingAccount.ty VestingAccount.ty.zero buf
    else if accType = 2 then unmarshalWork HTLCAccount.ty HTLCAccount.ty.zero buf
    else 0

/-- account.go:34-36 `WrapAccount` -/
def wrapAccount : Codec where
  α := Option Account
  zero := none
  dec _ d := WrapAccount.dec d
  enc := WrapAccount.enc
  gsize _ := .err .cannotMarshal
  spec
    | none => none
    | some (.basic a) => (Beserial.Spec.enc BasicAccount.ty {} a.toVal).map (0 :: ·)
    | some (.vesting a) => (Beserial.Spec.enc VestingAccount.ty {} a.toVal).map (1 :: ·)
    | some (.htlc a) => (Beserial.Spec.enc HTLCAccount.ty {} a.toVal).map (2 :: ·)
  min := 1
  mem := ⟨16, 8, WrapAccount.alloc, 96, 0, WrapAccount.work, 8, 1⟩

/-- account.go:408-411 `AccountPruned`: Address, Account -/
def accountPrunedTy : Ty := .struct (.cons none (.byteArr 20) (.cons none (.custom wrapAccount) .nil))

/-! ## block.go -/

/-- block.go:18-28 `BlockHeader`: Version, PrevHash, InterlinkHash, BodyHash, AccountsHash, NBits, Height, Timestamp,
Nonce -/
def headerTy : Ty := .struct
  (.cons none (.num .u16) (.cons none (.byteArr 32) (.cons none (.byteArr 32) (.cons none (.byteArr 32)
    (.cons none (.byteArr 32) (.cons none (.num .u32) (.cons none (.num .u32) (.cons none (.num .u32)
      (.cons none (.num .u32) .nil)))))))))

/-- block.go:31-36 `BlockBody`: MinerAddr, ExtraData, Txs, Pruned -/
def bodyTy : Ty := .struct
  (.cons none (.byteArr 20) (.cons tagU8 .byteSlice (.cons tagU16 (.slice (.custom wrapTx))
    (.cons tagU16 (.slice accountPrunedTy) .nil))))

/-- A pointer of `BlockInterlink.Hashes`: to `PrevHash` or into `Compressed`. -/
inductive HashRef where
  | prev
  | at (i : Nat)
  deriving DecidableEq

/-- block.go:39-44 -/
structure Interlink where
  repeats : BitSet
  hashes : List HashRef
  prevHash : Hash32
  compressed : List Hash32

/-- `bits.OnesCount8` -/
def onesCount8 (x : UInt8) : Nat :=
  ((List.range 8).filter fun i => x &&& (0x80 >>> UInt8.ofNat i) != 0).length

/-- block.go:58-61 -/
def compressedCount (bits : Bytes) : Nat := (bits.map fun x => 8 - onesCount8 x).sum

/-- block.go:68-82: the loop from index `i` for `n` more rounds, with `hash` the current pointer, `idx` the number of
hashes read, `comp` the slice `Compressed`. Note the order at lines 77-78: `b` is advanced before it is copied from. -/
def interlinkLoop (r : BitSet) : (n : Nat) → (i : UInt8) → HashRef → (idx : Nat) → List Hash32 → Bytes →
    Out (List HashRef × List Hash32 × Bytes)
  | 0, _, _, _, comp, b => .ok ([], comp, b)
  | n + 1, i, hash, idx, comp, b =>
    match r.bit i with
    | .panic => .panic
    | .err e => .err e
    | .ok true =>
      match interlinkLoop r n (i + 1) hash idx comp b with
      | .ok (hs, comp, b) => .ok (hash :: hs, comp, b)
      | .err e => .err e
      | .panic => .panic
    | .ok false =>
      if idx ≥ comp.length then .panic
      else if b.length < 32 then .err .eof
      else
        match interlinkLoop r n (i + 1) (.at idx) (idx + 1) (comp.set idx (BArr.copy 32 (b.drop 32))) (b.drop 32) with
        | .ok (hs, comp, b) => .ok (.at idx :: hs, comp, b)
        | .err e => .err e
        | .panic => .panic

/-- block.go:47-84 -/
def Interlink.dec (prev : Interlink) (orig : Bytes) : Out (Nat × Interlink) :=
  match BitSet.dec orig with
  | .ok (n, repeats) =>
    match interlinkLoop repeats repeats.len.toNat 0 .prev 0
        (List.replicate (compressedCount repeats.bits) (BArr.zero 32)) (orig.drop n) with
    | .ok (hs, comp, b) => .ok (orig.length - b.length, ⟨repeats, hs, prev.prevHash, comp⟩)
    | .err e => .err e
    | .panic => .panic
  | .err e => .err e
  | .panic => .panic

/-- block.go:86-96 -/
def Interlink.enc (il : Interlink) (b : Bytes) : Out Bytes :=
  match il.repeats.enc b with
  | .ok b => .ok (il.compressed.foldl (fun b h => b ++ h.val) b)
  | .err e => .err e
  | .panic => .panic

/-- block.go:56, 63: `make([]*[32]byte, il.Repeats.Len)` and `make([][32]byte, compressedCount)`, before the hashes are read -/
def Interlink.alloc (orig : Bytes) : Nat :=
  BitSet.alloc orig + match BitSet.dec orig with
    | .ok (_, repeats) => 8 * repeats.len.toNat + 32 * compressedCount repeats.bits
    | _ => 0

/-- block.go:68-82: one step for a round of the loop, and up to 32 for the copying -/
def interlinkWork (r : BitSet) : (n : Nat) → (i : UInt8) → (idx count : Nat) → Bytes → Nat
  | 0, _, _, _, _ => 0
  | n + 1, i, idx, count, b =>
    match r.bit i with
    | .ok true => 1 + interlinkWork r n (i + 1) idx count b
    | .ok false =>
      if idx ≥ count then 1
      else if b.length < 32 then 1
      else 1 + min 32 (b.length - 32) + interlinkWork r n (i + 1) (idx + 1) count (b.drop 32)
    | _ => 1

/-- block.go:47-84: the loop at 58-61 takes a step for each byte of the bit set -/
def Interlink.work (orig : Bytes) : Nat :=
  BitSet.work orig + match BitSet.dec orig with
    | .ok (n, repeats) => repeats.bits.length +
      interlinkWork repeats repeats.len.toNat 0 0 (compressedCount repeats.bits) (orig.drop n)
    | _ => 0

/-- BlockInterlink as a field. It does not implement a sensible specification (C45), so `spec` is just what the encoder
writes. -/
def interlink : Codec where
  α := Interlink
  zero := ⟨⟨0, []⟩, [], BArr.zero 32, []⟩
  dec := Interlink.dec
  enc := Interlink.enc
  gsize _ := .err .noLenTag
  spec il := some (il.repeats.len :: il.repeats.bits ++ (il.compressed.map (·.val)).flatten)
  min := 1
  mem := ⟨112, 8, Interlink.alloc, 31 + (8 * 255 + 32 * 248), 0, Interlink.work, 256, 2⟩

/-- block.go:11-15 `Block`: Header, Interlink, Body -/
def blockTy : Ty := .struct
  (.cons none headerTy (.cons none (.custom interlink) (.cons tagOptional (.ptr bodyTy) .nil)))

/-! ## p2p.go -/

/-- p2p.go:14-17 `NetAddress` (`net.IP` is a byte slice) -/
structure NetAddress where
  type : UInt8
  ip : Bytes
  deriving DecidableEq

/-- p2p.go:27-47: `na.Type` is not set -/
def NetAddress.dec (prev : NetAddress) (d : Bytes) : Out (Nat × NetAddress) :=
  match Unmarshal (.num .u8) (0 : UInt8) d with
  | .err e _ => .err e
  | .panic => .panic
  | .ok t b =>
    let n := d.length - b.length
    if t = 0 then
      if b.length < 4 then .err .eof else .ok (n + 4, { prev with ip := b.take 4 })
    else if t = 1 then
      if b.length < 16 then .err .eof else .ok (n + 16, { prev with ip := b.take 16 })
    else .err (.badType t)

/-- p2p.go:49-53 -/
def NetAddress.enc (na : NetAddress) (b : Bytes) : Out Bytes := .ok ((b ++ [na.type]) ++ na.ip)

/-- p2p.go:35-37: `make([]byte, ...)`, before the length check -/
def NetAddress.alloc (d : Bytes) : Nat :=
  match Unmarshal (.num .u8) (0 : UInt8) d with
  | .ok t _ => if t = 0 then 4 else if t = 1 then 16 else 0
  | _ => 0

/-- p2p.go:27-47: decoding the type and copying the address -/
def NetAddress.work (d : Bytes) : Nat :=
  unmarshalWork (.num .u8) (0 : UInt8) d + match Unmarshal (.num .u8) (0 : UInt8) d with
    | .ok t b => if t = 0 then (if b.length < 4 then 0 else 4) else if t = 1 then (if b.length < 16 then 0 else 16) else 0
    | _ => 0

/-- NetAddress as a field; the specification is the intended encoding (C47). -/
def netAddress : Codec where
  α := NetAddress
  zero := ⟨0, []⟩
  dec := NetAddress.dec
  enc := NetAddress.enc
  gsize _ := .err .noLenTag
  spec na := if (na.type = 0 ∧ na.ip.length = 4) ∨ (na.type = 1 ∧ na.ip.length = 16) then some (na.type :: na.ip) else none
  min := 1
  mem := ⟨32, 8, NetAddress.alloc, 16, 0, NetAddress.work, 1, 1⟩

/-- p2p.go:70-78 -/
structure PeerAddressHeader where
  protocol : UInt8
  services : UInt32
  timestamp : UInt64
  netAddress : NetAddress
  publicKey : BArr 32
  distance : UInt8
  signature : BArr 64
  deriving DecidableEq

def PeerAddressHeader.ty : Ty := .struct
  (.cons none (.num .u8) (.cons none (.num .u32) (.cons none (.num .u64) (.cons none (.custom Wire.netAddress)
    (.cons none (.byteArr 32) (.cons none (.num .u8) (.cons none (.byteArr 64) .nil)))))))
def PeerAddressHeader.toVal (p : PeerAddressHeader) : PeerAddressHeader.ty.Val :=
  (p.protocol, p.services, p.timestamp, p.netAddress, p.publicKey, p.distance, p.signature, ())
def PeerAddressHeader.ofVal (v : PeerAddressHeader.ty.Val) : PeerAddressHeader :=
  ⟨v.1, v.2.1, v.2.2.1, v.2.2.2.1, v.2.2.2.2.1, v.2.2.2.2.2.1, v.2.2.2.2.2.2.1⟩

/-- p2p.go:188-192 -/
structure PeerAddressSrv where
  host : Bytes
  port : UInt16
  tls : Bool
  deriving DecidableEq

/-- p2p.go:64-67 `PeerAddress`; `Detail` is nil or a `*PeerAddressSrv` -/
structure PeerAddress where
  header : PeerAddressHeader
  detail : Option PeerAddressSrv
  deriving DecidableEq

/-- The kind of `*(&pa.Detail)` is `reflect.Interface`. -/
def detailTy : Ty := .unsupported (Option PeerAddressSrv) none

/-- p2p.go:104-127 -/
def PeerAddress.dec (prev : PeerAddress) (b : Bytes) : Out (Nat × PeerAddress) :=
  match Unmarshal PeerAddressHeader.ty prev.header.toVal b with
  | .err e _ => .err e
  | .panic => .panic
  | .ok v rest =>
    let header := PeerAddressHeader.ofVal v
    let n := b.length - rest.length
    if header.protocol = 0 then
      match unmarshalAt detailTy none n rest with
      | .ok (n, detail) => .ok (n, ⟨header, detail⟩)
      | .err e => .err e
      | .panic => .panic
    else if header.protocol = 4 ∨ header.protocol = 1 then
      match unmarshalAt detailTy (some ⟨[], 0, false⟩) n rest with
      | .ok (n, detail) => .ok (n, ⟨header, detail⟩)
      | .err e => .err e
      | .panic => .panic
    else .err (.badType header.protocol)

/-- p2p.go:129-136 -/
def PeerAddress.enc (pa : PeerAddress) (b : Bytes) : Out Bytes :=
  match Marshal b PeerAddressHeader.ty pa.header.toVal with
  | .err e => .err e
  | .panic => .panic
  | .ok b => Marshal b detailTy pa.detail

/-- p2p.go:106-117: decoding the header and `new(PeerAddressSrv)` (24 bytes) -/
def PeerAddress.alloc (b : Bytes) : Nat :=
  unmarshalAlloc PeerAddressHeader.ty PeerAddressHeader.ty.zero b +
    match Unmarshal PeerAddressHeader.ty PeerAddressHeader.ty.zero b with
    | .ok v _ => if (PeerAddressHeader.ofVal v).protocol = 4 ∨ (PeerAddressHeader.ofVal v).protocol = 1 then 24 else 0
    | _ => 0

/-- p2p.go:97-127: decoding the header; the detail is an interface, whose decoding fails at once -/
def PeerAddress.work (b : Bytes) : Nat :=
  unmarshalWork PeerAddressHeader.ty PeerAddressHeader.ty.zero b +
    match Unmarshal PeerAddressHeader.ty PeerAddressHeader.ty.zero b with
    | .ok v rest => if (PeerAddressHeader.ofVal v).protocol = 0 then unmarshalWork detailTy none rest
      else if (PeerAddressHeader.ofVal v).protocol = 4 ∨ (PeerAddressHeader.ofVal v).protocol = 1 then
        unmarshalWork detailTy (some ⟨[], 0, false⟩) rest else 0
    | _ => 0

/-- PeerAddress as a field. The generic walk fails at NetAddress. No value has an encoding (C48). -/
def peerAddress : Codec where
  α := PeerAddress
  zero := ⟨⟨0, 0, 0, ⟨0, []⟩, BArr.zero 32, 0, BArr.zero 64⟩, none⟩
  dec := PeerAddress.dec
  enc := PeerAddress.enc
  gsize _ := .err .noLenTag
  spec _ := none
  min := 1
  mem := ⟨168, 8, PeerAddress.alloc, 16 + 24, 0, PeerAddress.work, 10, 1⟩

/-- p2p.go:165-172 and 178-182: the signed bytes -/
def PeerAddressHeader.signedBytes (p : PeerAddressHeader) : Bytes :=
  putBE 1 p.protocol.toNat ++ putBE 4 p.services.toNat ++ putBE 8 p.timestamp.toNat

/-- An Ed25519 implementation: signing with a 64 byte private key (whose last 32 bytes are the public key), verifying. -/
structure SigScheme where
  sign : BArr 64 → Bytes → BArr 64
  verify : BArr 32 → Bytes → BArr 64 → Bool

/-- The public half of an Ed25519 private key. -/
def pubOf (pk : BArr 64) : BArr 32 := BArr.copy 32 (pk.val.drop 32)

/-- p2p.go:165-173 `Sign` (a private key of another length panics) -/
def PeerAddressHeader.sign (S : SigScheme) (pk : BArr 64) (p : PeerAddressHeader) : PeerAddressHeader :=
  { p with publicKey := pubOf pk, signature := S.sign pk p.signedBytes }

/-- p2p.go:177-184 `VerifySignature` -/
def PeerAddressHeader.verify (S : SigScheme) (p : PeerAddressHeader) : Bool :=
  S.verify p.publicKey p.signedBytes p.signature

/-! ## Messages: msg.go, msg_inv.go, msg_p2p.go, msg_types.go -/

/-- msg_p2p.go:12-19 `VersionMessage`: Version, PeerAddress, GenesisHash, HeadHash, ChallengeNonce, UserAgent -/
def versionTy : Ty := .struct
  (.cons none (.num .u32) (.cons none (.custom peerAddress) (.cons none (.byteArr 32) (.cons none (.byteArr 32)
    (.cons none (.byteArr 32) (.cons tagU8 .str .nil))))))

/-- msg_inv.go:3-6, 17-20 `InvMessage`: MessageType, Vectors (no length tag) -/
def invTy : Ty := .struct
  (.cons none (.num .u64) (.cons none (.slice (.struct (.cons none (.num .u32) (.cons none (.byteArr 32) .nil)))) .nil))

/-- msg_inv.go:36-40 `GetBlocksMessage`: Locators, MaxInvSize, Direction -/
def getBlocksTy : Ty := .struct
  (.cons tagU16 (.slice (.byteArr 32)) (.cons none (.num .u16) (.cons none (.num .u8) .nil)))

/-- msg_inv.go:69-71 `BlockMessage`: Block (embedded) -/
def blockMsgTy : Ty := .struct (.cons none blockTy .nil)

/-- msg_inv.go:77-87 `HeadMessage`, `HeaderMessage`: BlockHeader (embedded) -/
def headMsgTy : Ty := .struct (.cons none headerTy .nil)

/-- msg.go:15-18 `TxMessage`: Tx -/
def txMsgTy : Ty := .struct (.cons none (.custom wrapTx) .nil)

/-- msg.go:7-9 `AddrMessage`: Addresses -/
def addrTy : Ty := .struct (.cons tagU16 (.slice (.custom peerAddress)) .nil)

/-- msg_inv.go:26-30 `GetAddrMessage`: ProtocolMask, ServiceMask, MaxResults -/
def getAddrTy : Ty := .struct (.cons none (.num .u8) (.cons none (.num .u32) (.cons none (.num .u16) .nil)))

/-- msg_p2p.go:26-29 `VerAckMessage`: PublicKey, Signature -/
def verAckTy : Ty := .struct (.cons none (.byteArr 32) (.cons none (.byteArr 64) .nil))

/-- msg_inv.go:60-63 `GetTxReceiptsMessage`: Address, Offset -/
def getTxReceiptsTy : Ty := .struct (.cons none (.byteArr 20) (.cons none (.num .u32) .nil))

/-- msg_inv.go:51-54 `GetTxProofMessage`: BlockHash, Addresses (no length tag) -/
def getTxProofTy : Ty := .struct (.cons none (.byteArr 32) (.cons none (.slice (.byteArr 20)) .nil))

/-- msg_p2p.go:37-40 -/
structure Ping where
  nonce : UInt32
  pong : Bool
  deriving DecidableEq

/-- msg_p2p.go:50-64 `BasePingMessage`; the generic walk fails at the bool -/
def ping : Codec where
  α := Ping
  zero := ⟨0, false⟩
  dec prev d := if d.length < 4 then .err .eof else .ok (4, { prev with nonce := UInt32.ofNat (getBE (d.take 4)) })
  enc p b := .ok (b ++ putBE 4 p.nonce.toNat)
  gsize _ := .err .cannotMarshal
  spec p := some (putBE 4 p.nonce.toNat)
  min := 4
  mem := ⟨8, 4, fun _ => 0, 0, 0, fun d => if d.length < 4 then 0 else 4, 0, 1⟩

/-- msg_types.go:122-141 `EmptyMessage` as seen through a pointer; the generic walk sees a `uint64` -/
def emptyMessage : Codec where
  α := UInt64
  zero := 0
  dec prev _ := .ok (0, prev)
  enc _ b := .ok b
  gsize _ := .ok 8
  spec _ := some []
  min := 0
  mem := ⟨8, 8, fun _ => 0, 0, 0, fun _ => 0, 0, 0⟩

/-- The types that implement `Message`. -/
inductive Msg where
  | version (v : versionTy.Val)
  | inv (v : invTy.Val)
  | getBlocks (v : getBlocksTy.Val)
  | block (v : blockMsgTy.Val)
  | header (v : headMsgTy.Val)
  | tx (v : txMsgTy.Val)
  | empty (t : UInt64)
  | addr (v : addrTy.Val)
  | getAddr (v : getAddrTy.Val)
  | ping (v : Ping)
  | head (v : headMsgTy.Val)
  | verAck (v : verAckTy.Val)
  | getTxProof (v : getTxProofTy.Val)
  | getTxReceipts (v : getTxReceiptsTy.Val)

/-- The `Type` methods: msg_p2p.go:21-23, 31-33, 42-47; msg_inv.go:22-24, 32-34, 47-49, 56-58, 65-67, 73-75, 81-83, 89-91;
msg.go:11-13, 20-22; msg_types.go:139-141 -/
def Msg.type : Msg → UInt64
  | .version _ => 0
  | .inv v => v.1
  | .getBlocks _ => 5
  | .block _ => 6
  | .header _ => 6
  | .tx _ => 8
  | .empty t => t
  | .addr _ => 20
  | .getAddr _ => 21
  | .ping p => if p.pong then 23 else 22
  | .head _ => 61
  | .verAck _ => 90
  | .getTxProof _ => 47
  | .getTxReceipts _ => 49

/-- The message as argument of the codec: pointers, except `EmptyMessage`, which is passed by value. -/
def Msg.arg : Msg → Arg
  | .version v => .pointer versionTy (some v)
  | .inv v => .pointer invTy (some v)
  | .getBlocks v => .pointer getBlocksTy (some v)
  | .block v => .pointer blockMsgTy (some v)
  | .header v => .pointer headMsgTy (some v)
  | .tx v => .pointer txMsgTy (some v)
  | .empty _ => .plain
  | .addr v => .pointer addrTy (some v)
  | .getAddr v => .pointer getAddrTy (some v)
  | .ping v => .pointer (.custom Wire.ping) (some v)
  | .head v => .pointer headMsgTy (some v)
  | .verAck v => .pointer verAckTy (some v)
  | .getTxProof v => .pointer getTxProofTy (some v)
  | .getTxReceipts v => .pointer getTxReceiptsTy (some v)

/-- msg_types.go:96-104: decoding into the new message and the junk check -/
def finishMessage (t : Ty) (prev : t.Val) (mk : t.Val → Msg) (buf : Bytes) : Out Msg :=
  match Unmarshal t prev buf with
  | .ok v rest => if buf.length - rest.length ≠ buf.length then .err .notFullyRead else .ok (mk v)
  | .err e _ => .err e
  | .panic => .panic

/-- msg_types.go:60-67 `&InvMessage{MessageType: ...}` -/
def newInv (t : UInt64) : invTy.Val := (t, [], ())

/-- msg_types.go:55-105 `UnmarshalMessage` -/
def UnmarshalMessage (msgType : UInt64) (buf : Bytes) : Out Msg :=
  if msgType = 0 then finishMessage versionTy versionTy.zero .version buf
  else if msgType = 1 then finishMessage invTy (newInv 1) .inv buf
  else if msgType = 2 then finishMessage invTy (newInv 2) .inv buf
  else if msgType = 3 then finishMessage invTy (newInv 3) .inv buf
  else if msgType = 4 then finishMessage invTy (newInv 4) .inv buf
  else if msgType = 5 then finishMessage getBlocksTy getBlocksTy.zero .getBlocks buf
  else if msgType = 6 then finishMessage blockMsgTy blockMsgTy.zero .block buf
  else if msgType = 7 then finishMessage headMsgTy headMsgTy.zero .header buf
  else if msgType = 8 then finishMessage txMsgTy txMsgTy.zero .tx buf
  else if msgType = 9 then .panic  -- `beserial.Unmarshal` of an EmptyMessage by value
  else if msgType = 20 then finishMessage addrTy addrTy.zero .addr buf
  else if msgType = 21 then finishMessage getAddrTy getAddrTy.zero .getAddr buf
  else if msgType = 22 then finishMessage (.custom ping) ⟨0, false⟩ .ping buf
  else if msgType = 23 then finishMessage (.custom ping) ⟨0, true⟩ .ping buf
  else if msgType = 40 then .panic
  else if msgType = 60 then .panic
  else if msgType = 61 then finishMessage headMsgTy headMsgTy.zero .head buf
  else if msgType = 90 then finishMessage verAckTy verAckTy.zero .verAck buf
  else .err (.unknownMessage msgType)

/-- The bytes requested by `UnmarshalMessage`: msg_types.go:57-93 `new(...)` of the message, then decoding it -/
def messageAlloc (msgType : UInt64) (buf : Bytes) : Nat :=
  if msgType = 0 then versionTy.size + unmarshalAlloc versionTy versionTy.zero buf
  else if msgType = 1 ∨ msgType = 2 ∨ msgType = 3 ∨ msgType = 4 then invTy.size + unmarshalAlloc invTy (newInv msgType) buf
  else if msgType = 5 then getBlocksTy.size + unmarshalAlloc getBlocksTy getBlocksTy.zero buf
  else if msgType = 6 then blockMsgTy.size + unmarshalAlloc blockMsgTy blockMsgTy.zero buf
  else if msgType = 7 ∨ msgType = 61 then headMsgTy.size + unmarshalAlloc headMsgTy headMsgTy.zero buf
  else if msgType = 8 then txMsgTy.size + unmarshalAlloc txMsgTy txMsgTy.zero buf
  else if msgType = 20 then addrTy.size + unmarshalAlloc addrTy addrTy.zero buf
  else if msgType = 21 then getAddrTy.size + unmarshalAlloc getAddrTy getAddrTy.zero buf
  else if msgType = 22 ∨ msgType = 23 then (Ty.custom ping).size + ping.mem.alloc buf
  else if msgType = 90 then verAckTy.size + unmarshalAlloc verAckTy verAckTy.zero buf
  else 0

/-- The steps of `UnmarshalMessage` (msg_types.go:55-105) -/
def messageWork (msgType : UInt64) (buf : Bytes) : Nat :=
  if msgType = 0 then unmarshalWork versionTy versionTy.zero buf
  else if msgType = 1 ∨ msgType = 2 ∨ msgType = 3 ∨ msgType = 4 then unmarshalWork invTy (newInv msgType) buf
  else if msgType = 5 then unmarshalWork getBlocksTy getBlocksTy.zero buf
  else if msgType = 6 then unmarshalWork blockMsgTy blockMsgTy.zero buf
  else if msgType = 7 ∨ msgType = 61 then unmarshalWork headMsgTy headMsgTy.zero buf
  else if msgType = 8 then unmarshalWork txMsgTy txMsgTy.zero buf
  else if msgType = 20 then unmarshalWork addrTy addrTy.zero buf
  else if msgType = 21 then unmarshalWork getAddrTy getAddrTy.zero buf
  else if msgType = 22 ∨ msgType = 23 then unmarshalWork (.custom ping) ⟨0, false⟩ buf
  else if msgType = 90 then unmarshalWork verAckTy verAckTy.zero buf
  else 0

/-- msg_types.go:108-117 `MarshalMessage` -/
def MarshalMessage (m : Msg) : Out Bytes :=
  match sizeArg m.arg with
  | .ok _ => marshalArg (putBE 8 m.type.toNat) m.arg
  | .err e => .err e
  | .panic => .panic

/-! ## utils.go -/

/-- `big.Int.Bytes`: big-endian without leading zeros -/
def bigBytes (x : Nat) : List Nat :=
  if _h : x = 0 then [] else bigBytes (x / 256) ++ [x % 256]
termination_by x
decreasing_by omega

/-- utils.go:10-27 `TargetToCompact` of a non-negative number (`big.Int.Bytes` ignores the sign); `|=` of `uint32`s;
`none` is a panic of an index expression -/
def targetToCompact (target : Nat) : Option UInt32 :=
  let b := bigBytes target
  match b with
  | [] => none
  | b0 :: rest =>
    if b0 ≥ 0x80 ∧ b.length ≥ 3 then
      match rest with
      | b1 :: _ => some ((UInt32.ofNat (b.length + 1) <<< 24) ||| (UInt32.ofNat b0 <<< 8) ||| UInt32.ofNat b1)
      | [] => none
    else
      match rest with
      | b1 :: b2 :: _ => some ((UInt32.ofNat b.length <<< 24) ||| (UInt32.ofNat b0 <<< 16) ||| (UInt32.ofNat b1 <<< 8) |||
          UInt32.ofNat b2)
      | _ => none

/-- policy.go:10-23 `BlockTargetMax` -/
def blockTargetMax : Nat := 2 ^ 240

/-- utils.go:35-38 `DifficultyToTarget` of a non-negative difficulty; `none` is the division by zero panic -/
def difficultyToTarget (difficulty : Nat) : Option Nat :=
  if difficulty = 0 then none else some (blockTargetMax / difficulty)

/-- utils.go:30-32 `DifficultyToCompact` -/
def difficultyToCompact (difficulty : Nat) : Option UInt32 :=
  match difficultyToTarget difficulty with
  | none => none
  | some t => targetToCompact t

/-! ## wallet/basic.go -/

/-- wallet/basic.go:18-22 `Basic` with an initialised key pair (nil keys panic); `address` is the cache -/
structure Wallet where
  privateKey : BArr 64
  publicKey : BArr 32
  address : Addr

/-- wallet/basic.go:25-32 `DeriveBasic` and 35-45 `GenerateBasic`: the key pair as a private key; `pub` is its second half -/
def newWallet (priv : BArr 64) : Wallet := ⟨priv, pubOf priv, BArr.zero 20⟩

/-- wallet/basic.go:48-54 `GetAddress` -/
def Wallet.getAddress (H : Bytes → Hash32) (w : Wallet) : Addr × Wallet :=
  if w.address = BArr.zero 20 then
    let a := publicKeyToAddress H w.publicKey
    (a, { w with address := a })
  else (w.address, w)

/-- wallet/basic.go:65-79 `signTx`: an encoding error panics -/
def Wallet.signTx (S : SigScheme) (H : Bytes → Hash32) (w : Wallet) (tx : Tx) : Out (BArr 64) :=
  match Marshal [] TxContent.ty (tx.content H).toVal with
  | .ok contentBuf => .ok (S.sign w.privateKey contentBuf)
  | .err _ => .panic
  | .panic => .panic

/-- wallet/basic.go:82-89 `SignBasicTx`; an error leaves the transaction alone -/
def Wallet.signBasicTx (S : SigScheme) (H : Bytes → Hash32) (w : Wallet) (tx : BasicTx) : Out BasicTx :=
  if w.publicKey ≠ tx.senderPubKey then .err .wrongSender
  else match w.signTx S H (.basic tx) with
    | .ok sig => .ok { tx with signature := sig }
    | .err e => .err e
    | .panic => .panic

/-- wallet/basic.go:92-99 `SignExtendedTx` -/
def Wallet.signExtendedTx (S : SigScheme) (H : Bytes → Hash32) (w : Wallet) (tx : ExtendedTx) : Out ExtendedTx :=
  match w.signTx S H (.extended tx) with
  | .ok sig =>
    match Marshal [] SignatureProof.ty (SignatureProof.toVal ⟨w.publicKey, ⟨⟨0, []⟩, []⟩, sig⟩) with
    | .ok proof => .ok { tx with proof := proof }
    | .err e => .err e
    | .panic => .panic
  | .err e => .err e
  | .panic => .panic

end Nimiq.Wire
