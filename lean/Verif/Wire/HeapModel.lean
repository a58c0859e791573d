import Verif.Beserial.HeapModel
import Verif.Wire.Model
/-!
# The protocol types with their memory

The custom decoders of package `wire` that keep slices of bytes (bit sets, net addresses, extended transactions, and what
contains them), as `Beserial/HeapModel.lean` has them: what is a slice in Go is a reference here.
-/
namespace Nimiq.Wire
open Beserial

/-- tx.go:55, account.go:58, p2p.go:30, 106: `sub, err = beserial.Unmarshal(buf, x)`, `n += sub` -/
def unmarshalAtH (t : HTy) (prev : t.Cell) (n0 : Nat) (h : Heap) (d : Ref) : Heap × Out (Nat × t.Cell) :=
  match UnmarshalH t prev h d with
  | (h, .ok v rest) => (h, .ok (n0 + (d.len - rest.len), v))
  | (h, .err e _) => (h, .err e)
  | (h, .panic) => (h, .panic)

/-- bitset.go:14-29: `bs.Bits = make([]byte, size)`, `copy(bs.Bits, b)` -/
def BitSet.decH (h : Heap) (d : Ref) : Heap × Out (Nat × (UInt8 × Ref)) :=
  match d.bytes h with
  | [] => (h, .err .eof)
  | l :: _ =>
    if d.len - 1 < BitSet.size l then (h ++ [List.replicate (BitSet.size l) 0], .err .eof)
    else
      let b : Ref := ⟨d.arr, d.off + 1, BitSet.size l⟩
      ((allocCopy h b).1, .ok (1 + BitSet.size l, (l, (allocCopy h b).2)))

def BitSet.loadH (h : Heap) (c : UInt8 × Ref) : BitSet := ⟨c.1, c.2.bytes h⟩

/-- bitset.go:9-12 -/
def bitSetH : HCodec where
  base := bitSet
  Cell := UInt8 × Ref
  zero := (0, Ref.nil)
  load := BitSet.loadH
  refs c := [c.2]
  dec _ h d := BitSet.decH h d
  acts c := .put [.lit [c.1], .slice c.2]

/-- signature.go:27-46, 48-58: the hashes are arrays in a new slice -/
def merklePathH : HCodec where
  base := merklePath
  acts c := .put (.lit [c.1.1] :: .slice c.1.2 :: c.2.map fun x => .lit x.val)
  Cell := (UInt8 × Ref) × List Hash32
  zero := ((0, Ref.nil), [])
  load h c := ⟨BitSet.loadH h c.1, c.2⟩
  refs c := [c.1.2]
  dec _ h d :=
    match BitSet.decH h d with
    | (h, .ok (n, branches)) =>
      match readHashes branches.1.toNat ((d.bytes h).drop n) with
      | none => (h, .err .eof)
      | some (hs, b) => (h, .ok (d.len - b.length, (branches, hs)))
    | (h, .err e) => (h, .err e)
    | (h, .panic) => (h, .panic)

/-- block.go:47-96: the hashes are copied into a new slice of arrays -/
def interlinkH : HCodec where
  base := interlink
  acts c := .put (.lit [c.1.1] :: .slice c.1.2 :: c.2.2.2.map fun x => .lit x.val)
  Cell := (UInt8 × Ref) × List HashRef × Hash32 × List Hash32
  zero := ((0, Ref.nil), [], BArr.zero 32, [])
  load h c := ⟨BitSet.loadH h c.1, c.2.1, c.2.2.1, c.2.2.2⟩
  refs c := [c.1.2]
  dec p h d :=
    match BitSet.decH h d with
    | (h, .ok (n, repeats)) =>
      match interlinkLoop (BitSet.loadH h repeats) repeats.1.toNat 0 .prev 0
          (List.replicate (compressedCount (repeats.2.bytes h)) (BArr.zero 32)) ((d.bytes h).drop n) with
      | .ok (hs, comp, b) => (h, .ok (d.len - b.length, (repeats, hs, p.2.2.1, comp)))
      | .err e => (h, .err e)
      | .panic => (h, .panic)
    | (h, .err e) => (h, .err e)
    | (h, .panic) => (h, .panic)

/-- tx_basic.go:4-12 -/
def basicTxH : HTy := .struct
  (.cons none (.byteArr 32) (.cons none (.byteArr 20) (.cons none (.num .u64) (.cons none (.num .u64)
    (.cons none (.num .u32) (.cons none (.num .u8) (.cons none (.byteArr 64) .nil)))))))

/-- tx_extended.go:5-17 -/
def extendedTxH : HTy := .struct
  (.cons tagU16 .byteSlice (.cons none (.byteArr 20) (.cons none (.num .u8) (.cons none (.byteArr 20)
    (.cons none (.num .u8) (.cons none (.num .u64) (.cons none (.num .u64) (.cons none (.num .u32)
      (.cons none (.num .u8) (.cons none (.num .u8) (.cons tagU16 .byteSlice .nil)))))))))))

/-- A `Tx` in memory. -/
inductive TxCell where
  | basic (c : basicTxH.Cell)
  | extended (c : extendedTxH.Cell)

def TxCell.load (h : Heap) : TxCell → Tx
  | .basic c => .basic (BasicTx.ofVal (basicTxH.load h c))
  | .extended c => .extended (ExtendedTx.ofVal (extendedTxH.load h c))

/-- The byte slices of a transaction: none, or `Data` and `Proof`. -/
def TxCell.refs : TxCell → List Ref
  | .basic _ => []
  | .extended c => extendedTxH.refs c

/-- tx.go:37-63: the transaction is decoded into `new(BasicTx)` or `new(ExtendedTx)` -/
def wrapTxH : HCodec where
  base := wrapTx
  acts c := match c with
    | none => ([], .panic)
    | some (.basic x) => (Trace.put [.lit [0]]).andThen (acts basicTxH x {})
    | some (.extended x) => (Trace.put [.lit [1]]).andThen (acts extendedTxH x {})
  Cell := Option TxCell
  zero := none
  load h c := c.map (TxCell.load h)
  refs c := match c with
    | none => []
    | some x => x.refs
  dec _ h d :=
    match d.bytes h with
    | [] => (h, .err .eof)
    | txType :: _ =>
      let buf : Ref := ⟨d.arr, d.off + 1, d.len - 1⟩
      if txType = 0 then
        match unmarshalAtH basicTxH basicTxH.zero 1 h buf with
        | (h, .ok (n, v)) => (h, .ok (n, some (.basic v)))
        | (h, .err e) => (h, .err e)
        | (h, .panic) => (h, .panic)
      else if txType = 1 then
        match unmarshalAtH extendedTxH extendedTxH.zero 1 h buf with
        | (h, .ok (n, v)) => (h, .ok (n, some (.extended v)))
        | (h, .err e) => (h, .err e)
        | (h, .panic) => (h, .panic)
      else (h, .err (.badType txType))

/-- hash.go:8-11, 35-39 -/
def hashH : HCodec := .plain hash fun x => .put [.lit [x.algorithm], .lit x.bytes.val]

/-- account.go:105-107, 143-150, 268-276 -/
def basicAccountH : HTy := .struct (.cons none (.num .u64) .nil)
def vestingAccountH : HTy := .struct
  (.cons none (.num .u64) (.cons none (.byteArr 20) (.cons none (.num .u32) (.cons none (.num .u32)
    (.cons none (.num .u64) (.cons none (.num .u64) .nil))))))
def htlcAccountH : HTy := .struct
  (.cons none (.num .u64) (.cons none (.byteArr 20) (.cons none (.byteArr 20) (.cons none (.custom hashH)
    (.cons none (.num .u8) (.cons none (.num .u32) (.cons none (.num .u64) .nil)))))))

/-- account.go:34-62 (accounts hold numbers and arrays only) -/
def wrapAccountH : HCodec := .plain wrapAccount fun (x : Option Account) => match x with
  | none => ([], .panic)
  | some (.basic a) => (Trace.put [.lit [0]]).andThen (acts basicAccountH a.toVal {})
  | some (.vesting a) => (Trace.put [.lit [1]]).andThen (acts vestingAccountH a.toVal {})
  | some (.htlc a) => (Trace.put [.lit [2]]).andThen (acts htlcAccountH a.toVal {})

/-- account.go:408-411, block.go:11-44 -/
def accountPrunedH : HTy := .struct (.cons none (.byteArr 20) (.cons none (.custom wrapAccountH) .nil))
def bodyH : HTy := .struct
  (.cons none (.byteArr 20) (.cons tagU8 .byteSlice (.cons tagU16 (.slice (.custom wrapTxH))
    (.cons tagU16 (.slice accountPrunedH) .nil))))
def headerH : HTy := .struct
  (.cons none (.num .u16) (.cons none (.byteArr 32) (.cons none (.byteArr 32) (.cons none (.byteArr 32)
    (.cons none (.byteArr 32) (.cons none (.num .u32) (.cons none (.num .u32) (.cons none (.num .u32)
      (.cons none (.num .u32) .nil)))))))))
def blockH : HTy := .struct
  (.cons none headerH (.cons none (.custom interlinkH) (.cons tagOptional (.ptr bodyH) .nil)))

/-- p2p.go:14-17, 27-53: `na.IP = make([]byte, ...)`, `copy(na.IP, b)` -/
def netAddressH : HCodec where
  base := netAddress
  acts c := .put [.lit [c.1], .slice c.2]
  Cell := UInt8 × Ref
  zero := (0, Ref.nil)
  load h c := ⟨c.1, c.2.bytes h⟩
  refs c := [c.2]
  dec p h d :=
    match UnmarshalH (.num .u8) (0 : UInt8) h d with
    | (h, .err e _) => (h, .err e)
    | (h, .panic) => (h, .panic)
    | (h, .ok t b) =>
      let n := d.len - b.len
      if t = 0 then
        if b.len < 4 then (h ++ [List.replicate 4 0], .err .eof)
        else ((allocCopy h ⟨b.arr, b.off, 4⟩).1, .ok (n + 4, (p.1, (allocCopy h ⟨b.arr, b.off, 4⟩).2)))
      else if t = 1 then
        if b.len < 16 then (h ++ [List.replicate 16 0], .err .eof)
        else ((allocCopy h ⟨b.arr, b.off, 16⟩).1, .ok (n + 16, (p.1, (allocCopy h ⟨b.arr, b.off, 16⟩).2)))
      else (h, .err (.badType t))

/-- p2p.go:70-78 -/
def peerAddressHeaderH : HTy := .struct
  (.cons none (.num .u8) (.cons none (.num .u32) (.cons none (.num .u64) (.cons none (.custom netAddressH)
    (.cons none (.byteArr 32) (.cons none (.num .u8) (.cons none (.byteArr 64) .nil)))))))
/-- p2p.go:66 `Detail interface{}` -/
def detailH : HTy := .unsupported (Option PeerAddressSrv) none

/-- p2p.go:64-67, 104-136 (the `Host` of a `PeerAddressSrv` is a string) -/
def peerAddressH : HCodec where
  base := peerAddress
  acts c := (acts peerAddressHeaderH c.1 {}).andThen (acts detailH c.2 {})
  Cell := peerAddressHeaderH.Cell × Option PeerAddressSrv
  zero := (peerAddressHeaderH.zero, none)
  load h c := ⟨PeerAddressHeader.ofVal (peerAddressHeaderH.load h c.1), c.2⟩
  refs c := peerAddressHeaderH.refs c.1
  dec p h d :=
    match UnmarshalH peerAddressHeaderH p.1 h d with
    | (h, .err e _) => (h, .err e)
    | (h, .panic) => (h, .panic)
    | (h, .ok v rest) =>
      let protocol := (PeerAddressHeader.ofVal (peerAddressHeaderH.load h v)).protocol
      let n := d.len - rest.len
      if protocol = 0 then
        match unmarshalAtH detailH none n h rest with
        | (h, .ok (n, detail)) => (h, .ok (n, (v, detail)))
        | (h, .err e) => (h, .err e)
        | (h, .panic) => (h, .panic)
      else if protocol = 4 ∨ protocol = 1 then
        match unmarshalAtH detailH (some ⟨[], 0, false⟩) n h rest with
        | (h, .ok (n, detail)) => (h, .ok (n, (v, detail)))
        | (h, .err e) => (h, .err e)
        | (h, .panic) => (h, .panic)
      else (h, .err (.badType protocol))

/-- The messages: msg_p2p.go:9-17, msg_inv.go:17-87, msg.go:7-18 -/
def versionH : HTy := .struct
  (.cons none (.num .u32) (.cons none (.custom peerAddressH) (.cons none (.byteArr 32) (.cons none (.byteArr 32)
    (.cons none (.byteArr 32) (.cons tagU8 .str .nil))))))
def invH : HTy := .struct
  (.cons none (.num .u64) (.cons none (.slice (.struct (.cons none (.num .u32) (.cons none (.byteArr 32) .nil)))) .nil))
def getBlocksH : HTy := .struct
  (.cons tagU16 (.slice (.byteArr 32)) (.cons none (.num .u16) (.cons none (.num .u8) .nil)))
def blockMsgH : HTy := .struct (.cons none blockH .nil)
def headMsgH : HTy := .struct (.cons none headerH .nil)
def txMsgH : HTy := .struct (.cons none (.custom wrapTxH) .nil)
def addrH : HTy := .struct (.cons tagU16 (.slice (.custom peerAddressH)) .nil)
def getAddrH : HTy := .struct (.cons none (.num .u8) (.cons none (.num .u32) (.cons none (.num .u16) .nil)))
def pingH : HTy := .custom (.plain ping fun p => .put [.lit (putBE 4 p.nonce.toNat)])
def verAckH : HTy := .struct (.cons none (.byteArr 32) (.cons none (.byteArr 64) .nil))

/-- signature.go:10-14 `SignatureProof`, which `ExtendedTx.Proof` is decoded into -/
def signatureProofH : HTy :=
  .struct (.cons none (.byteArr 32) (.cons none (.custom merklePathH) (.cons none (.byteArr 64) .nil)))

/-- What `UnmarshalMessage` returns, in memory. -/
inductive MsgCell where
  | version (c : versionH.Cell)
  | inv (c : invH.Cell)
  | getBlocks (c : getBlocksH.Cell)
  | block (c : blockMsgH.Cell)
  | header (c : headMsgH.Cell)
  | tx (c : txMsgH.Cell)
  | addr (c : addrH.Cell)
  | getAddr (c : getAddrH.Cell)
  | ping (c : pingH.Cell)
  | head (c : headMsgH.Cell)
  | verAck (c : verAckH.Cell)

/-- The message a caller sees. -/
def MsgCell.load (h : Heap) : MsgCell → Msg
  | .version c => .version (versionH.load h c)
  | .inv c => .inv (invH.load h c)
  | .getBlocks c => .getBlocks (getBlocksH.load h c)
  | .block c => .block (blockMsgH.load h c)
  | .header c => .header (headMsgH.load h c)
  | .tx c => .tx (txMsgH.load h c)
  | .addr c => .addr (addrH.load h c)
  | .getAddr c => .getAddr (getAddrH.load h c)
  | .ping c => .ping (pingH.load h c)
  | .head c => .head (headMsgH.load h c)
  | .verAck c => .verAck (verAckH.load h c)

/-- The slices of bytes in a message. -/
def MsgCell.refs : MsgCell → List Ref
  | .version c => versionH.refs c
  | .inv c => invH.refs c
  | .getBlocks c => getBlocksH.refs c
  | .block c => blockMsgH.refs c
  | .header c => headMsgH.refs c
  | .tx c => txMsgH.refs c
  | .addr c => addrH.refs c
  | .getAddr c => getAddrH.refs c
  | .ping c => pingH.refs c
  | .head c => headMsgH.refs c
  | .verAck c => verAckH.refs c

/-- msg_types.go:96-104 -/
def finishMessageH (t : HTy) (prev : t.Cell) (mk : t.Cell → MsgCell) (h : Heap) (buf : Ref) : Heap × Out MsgCell :=
  match UnmarshalH t prev h buf with
  | (h, .ok v rest) => if buf.len - rest.len ≠ buf.len then (h, .err .notFullyRead) else (h, .ok (mk v))
  | (h, .err e _) => (h, .err e)
  | (h, .panic) => (h, .panic)

/-- msg_types.go:60-67 `&InvMessage{MessageType: ...}` -/
def newInvH (t : UInt64) : invH.Cell := (t, [], ())

/-- msg_types.go:55-105 `UnmarshalMessage` -/
def UnmarshalMessageH (msgType : UInt64) (h : Heap) (buf : Ref) : Heap × Out MsgCell :=
  if msgType = 0 then finishMessageH versionH versionH.zero .version h buf
  else if msgType = 1 then finishMessageH invH (newInvH 1) .inv h buf
  else if msgType = 2 then finishMessageH invH (newInvH 2) .inv h buf
  else if msgType = 3 then finishMessageH invH (newInvH 3) .inv h buf
  else if msgType = 4 then finishMessageH invH (newInvH 4) .inv h buf
  else if msgType = 5 then finishMessageH getBlocksH getBlocksH.zero .getBlocks h buf
  else if msgType = 6 then finishMessageH blockMsgH blockMsgH.zero .block h buf
  else if msgType = 7 then finishMessageH headMsgH headMsgH.zero .header h buf
  else if msgType = 8 then finishMessageH txMsgH txMsgH.zero .tx h buf
  else if msgType = 9 then (h, .panic)
  else if msgType = 20 then finishMessageH addrH addrH.zero .addr h buf
  else if msgType = 21 then finishMessageH getAddrH getAddrH.zero .getAddr h buf
  else if msgType = 22 then finishMessageH pingH (⟨0, false⟩ : Ping) .ping h buf
  else if msgType = 23 then finishMessageH pingH (⟨0, true⟩ : Ping) .ping h buf
  else if msgType = 40 then (h, .panic)
  else if msgType = 60 then (h, .panic)
  else if msgType = 61 then finishMessageH headMsgH headMsgH.zero .head h buf
  else if msgType = 90 then finishMessageH verAckH verAckH.zero .verAck h buf
  else (h, .err (.unknownMessage msgType))

/-- A message as a variable of its type. -/
def MsgCell.var : MsgCell → (t : HTy) × t.Cell
  | .version c => ⟨versionH, c⟩
  | .inv c => ⟨invH, c⟩
  | .getBlocks c => ⟨getBlocksH, c⟩
  | .block c => ⟨blockMsgH, c⟩
  | .header c => ⟨headMsgH, c⟩
  | .tx c => ⟨txMsgH, c⟩
  | .addr c => ⟨addrH, c⟩
  | .getAddr c => ⟨getAddrH, c⟩
  | .ping c => ⟨pingH, c⟩
  | .head c => ⟨headMsgH, c⟩
  | .verAck c => ⟨verAckH, c⟩

/-- msg_types.go:108-117 `MarshalMessage`: `buf := make([]byte, 8+size)`, the type is put in the first 8 bytes, and `buf[:8]`
is appended to -/
def MarshalMessageH (grow : Nat → Nat → Nat) (m : MsgCell) (h : Heap) : Heap × Out Buf :=
  match sizeArg (m.load h).arg with
  | .ok size => MarshalH grow m.var.1 m.var.2 (h ++ [putBE 8 (m.load h).type.toNat ++ List.replicate size 0])
      ⟨h.length, 0, 8, 8 + size⟩
  | .err e => (h, .err e)
  | .panic => (h, .panic)

end Nimiq.Wire
