import Verif.Wire.Codecs
/-!
# The `SizeBESerial` methods (C84) and small helpers of package wire (C85)

`beserial.Size` never calls the methods (C32), but they are part of the public interface `beserial.Marshaler`.
-/
namespace Nimiq.Wire
open Beserial Beserial.Spec

/-! ## Model -/

/-- bitset.go:37-39 -/
def BitSet.sizeMethod (bs : BitSet) : Out Nat := .ok (1 + bs.bits.length)

/-- hash.go:41-43 -/
def Hash.sizeMethod (h : Hash) : Out Nat := .ok (1 + h.bytes.val.length)

/-- signature.go:60-67 -/
def MerklePath.sizeMethod (mp : MerklePath) : Out Nat :=
  match mp.branches.sizeMethod with
  | .ok n => .ok (n + mp.hashes.length * 32)
  | .err e => .err e
  | .panic => .panic

/-- block.go:98-105 -/
def Interlink.sizeMethod (il : Interlink) : Out Nat :=
  match il.repeats.sizeMethod with
  | .ok n => .ok (n + il.compressed.length * 32)
  | .err e => .err e
  | .panic => .panic

/-- p2p.go:55-61 -/
def NetAddress.sizeMethod (na : NetAddress) : Out Nat := .ok (1 + na.ip.length)

/-- p2p.go:138-151; `&pa.Detail` points to an interface -/
def PeerAddress.sizeMethod (pa : PeerAddress) : Out Nat :=
  match Size PeerAddressHeader.ty pa.header.toVal with
  | .err e => .err e
  | .panic => .panic
  | .ok n =>
    match Size detailTy pa.detail with
    | .err e => .err e
    | .panic => .panic
    | .ok sub => .ok (n + sub)

/-- `n = 1; sub, err = beserial.Size(x); n += sub` -/
def onePlus : Out Nat → Out Nat
  | .ok sub => .ok (1 + sub)
  | .err e => .err e
  | .panic => .panic

/-- tx.go:66-72; a nil `Tx` panics in `beserial.Size` -/
def WrapTx.sizeMethod : Option Tx → Out Nat
  | none => .panic
  | some (.basic t) => onePlus (Size BasicTx.ty t.toVal)
  | some (.extended t) => onePlus (Size ExtendedTx.ty t.toVal)

/-- account.go:64-70 -/
def WrapAccount.sizeMethod : Option Account → Out Nat
  | none => .panic
  | some (.basic a) => onePlus (Size BasicAccount.ty a.toVal)
  | some (.vesting a) => onePlus (Size VestingAccount.ty a.toVal)
  | some (.htlc a) => onePlus (Size HTLCAccount.ty a.toVal)

/-- tx.go:66-72, account.go:64-70 around any value of the interface: `.plain` is the nil interface, `.pointer t none` a nil pointer -/
def wrapSizeArg (a : Arg) : Out Nat := onePlus (sizeArg a)

/-- tx.go:60-63, account.go:59-62 around any value of the interface; `Type()` of the nil interface panics, of a nil pointer it
returns the constant `type` -/
def wrapEncArg (type : UInt8) (a : Arg) (b : Bytes) : Out Bytes :=
  match a with
  | .plain => .panic
  | a => marshalArg (b ++ [type]) a

/-- msg_p2p.go:67-69 -/
def Ping.sizeMethod (_ : Ping) : Out Nat := .ok 4

/-- msg_types.go:135-137 -/
def emptySizeMethod (_ : UInt64) : Out Nat := .ok 0

/-! ## C84 -/

/-- The size is reported, and encoding appends that many bytes to every buffer. -/
def ExactSize (size : Out Nat) (encode : Bytes → Out Bytes) : Prop :=
  ∃ n, size = .ok n ∧ ∀ b, ∃ bs, encode b = .ok (b ++ bs) ∧ bs.length = n

theorem foldl_append_hashes (hs : List Hash32) (b : Bytes) :
    ∃ bs, hs.foldl (fun b h => b ++ h.val) b = b ++ bs ∧ bs.length = hs.length * 32 := by
  induction hs generalizing b with
  | nil => exact ⟨[], by simp, rfl⟩
  | cons h hs ih =>
    obtain ⟨bs, h1, h2⟩ := ih (b ++ h.val)
    refine ⟨h.val ++ bs, by rw [List.foldl_cons, h1, List.append_assoc], ?_⟩
    rw [List.length_append, h2, h.property, List.length_cons]; omega

theorem exactSize_tagged {t : Ty} {v : t.Val} {n : Nat} (x : UInt8) (ht : SizeOk t) (hs : Size t v = .ok n) :
    ExactSize (onePlus (Size t v)) fun b => Marshal (b ++ [x]) t v := by
  refine ⟨1 + n, by rw [hs]; rfl, fun b => ?_⟩
  obtain ⟨bs, h1, h2⟩ := valueSize_sound t {} v n (b ++ [x]) ht hs
  refine ⟨x :: bs, ?_, by rw [List.length_cons]; omega⟩
  show marshal t v (b ++ [x]) {} = _
  rw [h2, List.append_assoc]; rfl

/-- C84. The size methods of bit sets, hashes, Merkle paths, interlinks, net addresses, pings and empty messages are exact. -/
theorem C84_fixed_exact :
    (∀ bs : BitSet, ExactSize bs.sizeMethod bs.enc) ∧ (∀ h : Hash, ExactSize h.sizeMethod (Wire.hash.enc h)) ∧
    (∀ mp : MerklePath, ExactSize mp.sizeMethod mp.enc) ∧ (∀ il : Interlink, ExactSize il.sizeMethod il.enc) ∧
    (∀ na : NetAddress, ExactSize na.sizeMethod na.enc) ∧ (∀ p : Ping, ExactSize p.sizeMethod (ping.enc p)) ∧
    (∀ t : UInt64, ExactSize (emptySizeMethod t) (emptyMessage.enc t)) := by
  refine ⟨fun bs => ?_, fun h => ?_, fun mp => ?_, fun il => ?_, fun na => ?_, fun p => ?_, fun t => ?_⟩
  · exact ⟨_, rfl, fun b => ⟨bs.len :: bs.bits, by simp [BitSet.enc], by simp; omega⟩⟩
  · exact ⟨_, rfl, fun b => ⟨h.algorithm :: h.bytes.val, by simp [Wire.hash], by simp; omega⟩⟩
  · refine ⟨_, rfl, fun b => ?_⟩
    obtain ⟨bs, h1, h2⟩ := foldl_append_hashes mp.hashes ((b ++ [mp.branches.len]) ++ mp.branches.bits)
    refine ⟨mp.branches.len :: (mp.branches.bits ++ bs), ?_, ?_⟩
    · simp only [MerklePath.enc, BitSet.enc]; rw [h1]; simp
    · simp [h2]; omega
  · refine ⟨_, rfl, fun b => ?_⟩
    obtain ⟨bs, h1, h2⟩ := foldl_append_hashes il.compressed ((b ++ [il.repeats.len]) ++ il.repeats.bits)
    refine ⟨il.repeats.len :: (il.repeats.bits ++ bs), ?_, ?_⟩
    · simp only [Interlink.enc, BitSet.enc]; rw [h1]; simp
    · simp [h2]; omega
  · exact ⟨_, rfl, fun b => ⟨na.type :: na.ip, by simp [NetAddress.enc], by simp; omega⟩⟩
  · exact ⟨_, rfl, fun b => ⟨_, rfl, by simp [putBE]⟩⟩
  · exact ⟨_, rfl, fun b => ⟨[], by simp [emptyMessage], rfl⟩⟩

/-- C84. So are those of transactions and accounts. -/
theorem C84_wrapped_exact :
    (∀ tx : Tx, ExactSize (WrapTx.sizeMethod (some tx)) (WrapTx.enc (some tx))) ∧
    (∀ a : Account, ExactSize (WrapAccount.sizeMethod (some a)) (WrapAccount.enc (some a))) := by
  have ht : fieldTags tagU16 = some { lenTag := some .u16 } := fieldTags_u16
  have hh : ∀ a n b, Wire.hash.gsize a = .ok n → ∃ bs, bs.length = n ∧ Wire.hash.enc a b = .ok (b ++ bs) := by
    intro a n b h
    cases h
    exact ⟨a.algorithm :: a.bytes.val, by simp [a.bytes.property], by simp [Wire.hash]⟩
  constructor
  · intro tx
    cases tx with
    | basic t =>
      refine exactSize_tagged (t := BasicTx.ty) (v := t.toVal) (n := 137) _
        (by simp [BasicTx.ty, SizeOk, SizeOkFields]) ?_
      simp [Size, BasicTx.ty, BasicTx.toVal, valueSize, fieldsSize, fieldTags_none, NumKind.size]
    | extended t =>
      refine exactSize_tagged (t := ExtendedTx.ty) (v := t.toVal) (n := 2 + t.data.length + 20 + 1 + 20 + 1 + 8 + 8 + 4 + 1 + 1 + (2 + t.proof.length)) _
        (by simp [ExtendedTx.ty, SizeOk, SizeOkFields]) ?_
      simp [Size, ExtendedTx.ty, ExtendedTx.toVal, valueSize, fieldsSize, fieldTags_none, ht, NumKind.size, LenKind.size]
  · intro a
    cases a with
    | basic t =>
      refine exactSize_tagged (t := BasicAccount.ty) (v := t.toVal) (n := 8) _
        (by simp [BasicAccount.ty, SizeOk, SizeOkFields]) ?_
      simp [Size, BasicAccount.ty, BasicAccount.toVal, valueSize, fieldsSize, fieldTags_none, NumKind.size]
    | vesting t =>
      refine exactSize_tagged (t := VestingAccount.ty) (v := t.toVal) (n := 52) _
        (by simp [VestingAccount.ty, SizeOk, SizeOkFields]) ?_
      simp [Size, VestingAccount.ty, VestingAccount.toVal, valueSize, fieldsSize, fieldTags_none, NumKind.size]
    | htlc t =>
      refine exactSize_tagged (t := HTLCAccount.ty) (v := t.toVal) (n := 94) _
        (by simp only [HTLCAccount.ty, SizeOk, SizeOkFields, true_and, and_true]; exact hh) ?_
      simp [Size, HTLCAccount.ty, HTLCAccount.toVal, valueSize, fieldsSize, fieldTags_none, NumKind.size, Wire.hash]

/-- C84, nil. A nil transaction or account has neither a size nor an encoding: both methods panic. A nil pointer to a concrete type
has a size (1), though it cannot be encoded. -/
theorem C84_nil (b : Bytes) :
    (WrapTx.sizeMethod none = .panic ∧ WrapTx.enc none b = .panic) ∧
    (WrapAccount.sizeMethod none = .panic ∧ WrapAccount.enc none b = .panic) ∧
    (wrapSizeArg .plain = .panic ∧ ∀ type, wrapEncArg type .plain b = .panic) ∧
    (∀ (t : Ty) (type : UInt8), wrapSizeArg (.pointer t none) = .ok 1 ∧
      wrapEncArg type (.pointer t none) b = .err .invalidUnmarshal) :=
  ⟨⟨rfl, rfl⟩, ⟨rfl, rfl⟩, ⟨rfl, fun _ => rfl⟩, fun _ _ => ⟨rfl, rfl⟩⟩

/-- C84: the methods on transactions and accounts are those on any value of the interfaces. -/
theorem C84_any (b : Bytes) :
    (∀ t : BasicTx, WrapTx.sizeMethod (some (.basic t)) = wrapSizeArg (.pointer BasicTx.ty (some t.toVal)) ∧
      WrapTx.enc (some (.basic t)) b = wrapEncArg 0 (.pointer BasicTx.ty (some t.toVal)) b) ∧
    (∀ t : ExtendedTx, WrapTx.sizeMethod (some (.extended t)) = wrapSizeArg (.pointer ExtendedTx.ty (some t.toVal)) ∧
      WrapTx.enc (some (.extended t)) b = wrapEncArg 1 (.pointer ExtendedTx.ty (some t.toVal)) b) ∧
    (∀ a : BasicAccount, WrapAccount.sizeMethod (some (.basic a)) = wrapSizeArg (.pointer BasicAccount.ty (some a.toVal)) ∧
      WrapAccount.enc (some (.basic a)) b = wrapEncArg 0 (.pointer BasicAccount.ty (some a.toVal)) b) ∧
    (∀ a : VestingAccount, WrapAccount.sizeMethod (some (.vesting a)) = wrapSizeArg (.pointer VestingAccount.ty (some a.toVal)) ∧
      WrapAccount.enc (some (.vesting a)) b = wrapEncArg 1 (.pointer VestingAccount.ty (some a.toVal)) b) ∧
    (∀ a : HTLCAccount, WrapAccount.sizeMethod (some (.htlc a)) = wrapSizeArg (.pointer HTLCAccount.ty (some a.toVal)) ∧
      WrapAccount.enc (some (.htlc a)) b = wrapEncArg 2 (.pointer HTLCAccount.ty (some a.toVal)) b) :=
  ⟨fun _ => ⟨rfl, rfl⟩, fun _ => ⟨rfl, rfl⟩, fun _ => ⟨rfl, rfl⟩, fun _ => ⟨rfl, rfl⟩, fun _ => ⟨rfl, rfl⟩⟩

/-- C84. A peer address, which cannot be encoded (C48), has no size either. -/
theorem C84_peer_address (pa : PeerAddress) (b : Bytes) :
    pa.sizeMethod = .err .noLenTag ∧ pa.enc b = .err .cannotMarshal := by
  refine ⟨?_, (C48_violated pa b []).1⟩
  have : Size PeerAddressHeader.ty pa.header.toVal = .err .noLenTag := by
    simp [Size, PeerAddressHeader.ty, PeerAddressHeader.toVal, valueSize, fieldsSize, fieldTags_none, netAddress]
  unfold PeerAddress.sizeMethod
  rw [this]

/-- C84 on an instance: a Merkle path of two nodes takes 1 + 1 + 64 bytes. -/
example (h1 h2 : Hash32) : (MerklePath.mk ⟨2, [0x80]⟩ [h1, h2]).sizeMethod = .ok 66 := rfl

/-! ## C85 -/

/-- p2p.go:81-86 -/
def protocolDumb : UInt8 := 0
def protocolWSS : UInt8 := (1 : UInt8) <<< 0
def protocolRTC : UInt8 := (1 : UInt8) <<< 1
def protocolWS : UInt8 := (1 : UInt8) <<< 2

/-- p2p.go:89-102 `ProtocolScheme` -/
def protocolScheme (proto : UInt8) : List Char :=
  if proto = protocolDumb then ['d', 'u', 'm', 'b']
  else if proto = protocolWS then ['w', 's']
  else if proto = protocolWSS then ['w', 's', 's']
  else if proto = protocolRTC then ['r', 't', 'c']
  else ['i', 'n', 'v', 'a', 'l', 'i', 'd']

/-- p2p.go:157-161 `GetPeerID` -/
def getPeerID (H : Bytes → Hash32) (pubKey : Bytes) : BArr 16 := BArr.copy 16 ((H pubKey).val.take 16)

/-- services.go:4-9: `1 << iota`, where `iota` is 1, 2, 3 (the first constant, with `iota` 0, is `ServicesNone`) -/
def servicesNone : UInt32 := 0
def servicesNano : UInt32 := (1 : UInt32) <<< 1
def servicesLight : UInt32 := (1 : UInt32) <<< 2
def servicesFull : UInt32 := (1 : UInt32) <<< 3

/-- C85. The scheme of a protocol id determines it, except that all unknown ids are called "invalid". -/
theorem C85_scheme (p q : UInt8) (h : protocolScheme p = protocolScheme q) :
    p = q ∨ (protocolScheme p = ['i', 'n', 'v', 'a', 'l', 'i', 'd'] ∧ p ∉ [0, 1, 2, 4] ∧ q ∉ [0, 1, 2, 4]) := by
  have key : ∀ x : UInt8, x = 0 ∧ protocolScheme x = ['d', 'u', 'm', 'b'] ∨ x = 4 ∧ protocolScheme x = ['w', 's'] ∨
      x = 1 ∧ protocolScheme x = ['w', 's', 's'] ∨ x = 2 ∧ protocolScheme x = ['r', 't', 'c'] ∨
      x ∉ [0, 1, 2, (4 : UInt8)] ∧ protocolScheme x = ['i', 'n', 'v', 'a', 'l', 'i', 'd'] := by
    intro x
    unfold protocolScheme
    by_cases h0 : x = protocolDumb
    · exact .inl ⟨h0, if_pos h0⟩
    by_cases h1 : x = protocolWS
    · exact .inr (.inl ⟨h1, by rw [if_neg h0, if_pos h1]⟩)
    by_cases h2 : x = protocolWSS
    · exact .inr (.inr (.inl ⟨h2, by rw [if_neg h0, if_neg h1, if_pos h2]⟩))
    by_cases h3 : x = protocolRTC
    · exact .inr (.inr (.inr (.inl ⟨h3, by rw [if_neg h0, if_neg h1, if_neg h2, if_pos h3]⟩)))
    · refine .inr (.inr (.inr (.inr ⟨?_, by rw [if_neg h0, if_neg h1, if_neg h2, if_neg h3]⟩)))
      simp only [List.mem_cons, List.not_mem_nil, or_false, not_or]
      exact ⟨h0, h2, h3, h1⟩
  rcases key p with ⟨e1, s1⟩ | ⟨e1, s1⟩ | ⟨e1, s1⟩ | ⟨e1, s1⟩ | ⟨e1, s1⟩ <;>
    rcases key q with ⟨e2, s2⟩ | ⟨e2, s2⟩ | ⟨e2, s2⟩ | ⟨e2, s2⟩ | ⟨e2, s2⟩ <;>
    first
      | exact .inl (e1.trans e2.symm)
      | exact .inr ⟨s1, e1, e2⟩
      | (rw [s1, s2] at h; exact absurd h (by decide))

example : protocolScheme 3 = protocolScheme 77 := rfl

/-- C85. The peer id of a key is the first 16 bytes of the address of that key, so keys with the same address have the same
peer id. -/
theorem C85_peer_id (H : Bytes → Hash32) (key : BArr 32) :
    (getPeerID H key.val).val = (publicKeyToAddress H key).val.take 16 := by
  have hl : (H key.val).val.length = 32 := (H key.val).property
  unfold getPeerID publicKeyToAddress
  simp only [BArr.copy]
  simp [hl, List.take_take]

/-- C85. The service flags do not overlap: a mask with any choice of them tells which were chosen. -/
theorem C85_services (nano light full : Bool) :
    let mask := (if nano then servicesNano else 0) ||| (if light then servicesLight else 0) ||| (if full then servicesFull else 0)
    (mask &&& servicesNano ≠ 0 ↔ nano) ∧ (mask &&& servicesLight ≠ 0 ↔ light) ∧ (mask &&& servicesFull ≠ 0 ↔ full) ∧
    (mask = servicesNone ↔ ¬ nano ∧ ¬ light ∧ ¬ full) := by
  revert nano light full
  decide

end Nimiq.Wire
