import Verif.Wire.Lawful
/-!
# Transactions, accounts, bit sets, net and peer addresses on the wire (C39, C40, C46-C48, C32)

The expected layouts are written out with `Spec.digits` (big-endian numbers).
-/
namespace Nimiq.Wire
open Beserial Beserial.Spec

/-! ## Layouts (specification) -/

/-- What a transaction looks like on the wire. -/
def txLayout : Tx → Bytes
  | .basic t => [0] ++ t.senderPubKey.val ++ t.recipient.val ++ digits 8 t.value.toNat ++ digits 8 t.fee.toNat ++
      digits 4 t.validityStartHeight.toNat ++ digits 1 t.networkID.toNat ++ t.signature.val
  | .extended t => [1] ++ digits 2 t.data.length ++ t.data ++ t.sender.val ++ digits 1 t.senderType.toNat ++
      t.recipient.val ++ digits 1 t.recipientType.toNat ++ digits 8 t.value.toNat ++ digits 8 t.fee.toNat ++
      digits 4 t.validityStartHeight.toNat ++ digits 1 t.networkID.toNat ++ digits 1 t.flags.toNat ++
      digits 2 t.proof.length ++ t.proof

/-- Data and proof fit their 16 bit lengths. -/
def txFits : Tx → Prop
  | .basic _ => True
  | .extended t => t.data.length < 65536 ∧ t.proof.length < 65536

/-- What an account looks like on the wire and in the accounts tree. -/
def accountLayout : Account → Bytes
  | .basic a => [0] ++ digits 8 a.value.toNat
  | .vesting a => [1] ++ digits 8 a.value.toNat ++ a.owner.val ++ digits 4 a.vestingStart.toNat ++
      digits 4 a.vestingStepBlocks.toNat ++ digits 8 a.vestingStepAmount.toNat ++ digits 8 a.vestingTotalAmount.toNat
  | .htlc a => [2] ++ digits 8 a.value.toNat ++ a.sender.val ++ a.recipient.val ++ [a.hash.algorithm] ++
      a.hash.bytes.val ++ digits 1 a.hashCount.toNat ++ digits 4 a.timeout.toNat ++ digits 8 a.totalAmount.toNat

/-! ## Layout lemmas -/

theorem wrapTx_spec_some (tx : Tx) (h : txFits tx) : wrapTx.spec (some tx) = some (txLayout tx) := by
  cases tx with
  | basic t =>
    simp [wrapTx, BasicTx.ty, BasicTx.toVal, enc, encFields, Spec.num, txLayout]
  | extended t =>
    have h1 : t.data.length ≤ maxLen .u16 := by have := h.1; simp only [maxLen]; omega
    have h2 : t.proof.length ≤ maxLen .u16 := by have := h.2; simp only [maxLen]; omega
    simp [wrapTx, ExtendedTx.ty, ExtendedTx.toVal, enc, encFields, Spec.num, txLayout, Spec.len, h1, h2, LenKind.size]

theorem wrapTx_spec_none (tx : Tx) (h : ¬ txFits tx) : wrapTx.spec (some tx) = none := by
  cases tx with
  | basic t => exact absurd trivial h
  | extended t =>
    have h : ¬ t.data.length < 65536 ∨ ¬ t.proof.length < 65536 := by
      simp only [txFits] at h; omega
    simp only [wrapTx, Option.map_eq_none_iff]
    rcases h with h | h
    · have h1 : ¬ t.data.length ≤ maxLen .u16 := by simp only [maxLen]; omega
      simp [ExtendedTx.ty, ExtendedTx.toVal, enc, encFields, Spec.len, h1]
    · have h1 : ¬ t.proof.length ≤ maxLen .u16 := by simp only [maxLen]; omega
      simp [ExtendedTx.ty, ExtendedTx.toVal, enc, encFields, Spec.len, h1]

theorem wrapAccount_spec_some (a : Account) : wrapAccount.spec (some a) = some (accountLayout a) := by
  cases a with
  | basic t => simp [wrapAccount, BasicAccount.ty, BasicAccount.toVal, enc, encFields, Spec.num, accountLayout]
  | vesting t => simp [wrapAccount, VestingAccount.ty, VestingAccount.toVal, enc, encFields, Spec.num, accountLayout]
  | htlc t => simp [wrapAccount, HTLCAccount.ty, HTLCAccount.toVal, enc, encFields, Spec.num, accountLayout, hash]

/-! ## C39 -/

/-- C39. A transaction whose data and proof fit is written in the documented layout and read back, whatever follows. -/
theorem C39_round_trip (tx : Tx) (h : txFits tx) (b rest : Bytes) :
    WrapTx.enc (some tx) b = .ok (b ++ txLayout tx) ∧
    WrapTx.dec (txLayout tx ++ rest) = .ok ((txLayout tx).length, some tx) :=
  ⟨wrapTx_lawful.enc _ _ _ (wrapTx_spec_some tx h), wrapTx_lawful.dec none _ _ _ (wrapTx_spec_some tx h)⟩

/-- C39. Whatever is accepted as a transaction starts with type 0 or 1 and is byte for byte the transaction's layout. -/
theorem C39_canonical (d : Bytes) (n : Nat) (w : Option Tx) (h : WrapTx.dec d = .ok (n, w)) :
    ∃ tx, w = some tx ∧ txFits tx ∧ (tx.type = 0 ∨ tx.type = 1) ∧ n ≤ d.length ∧ d.take n = txLayout tx := by
  obtain ⟨h1, h2⟩ := wrapTx_lawful.canon none w n d h
  cases w with
  | none => simp [wrapTx] at h2
  | some tx =>
    by_cases hf : txFits tx
    · rw [wrapTx_spec_some tx hf] at h2
      refine ⟨tx, rfl, hf, ?_, h1, (Option.some.inj h2).symm⟩
      cases tx <;> simp [Tx.type]
    · rw [wrapTx_spec_none tx hf] at h2; cases h2

/-- C39. Every other type byte is rejected. -/
theorem C39_unknown_type (ty : UInt8) (d : Bytes) (h0 : ty ≠ 0) (h1 : ty ≠ 1) : WrapTx.dec (ty :: d) = .err (.badType ty) := by
  simp [WrapTx.dec, h0, h1]

/-- C39. Decoding a transaction never panics. -/
theorem C39_no_panic (d : Bytes) : WrapTx.dec d ≠ .panic := wrapTx_lawful.total none d

example : txFits (.extended ⟨[1, 2], BArr.zero 20, 0, BArr.zero 20, 1, 5, 1, 0, 42, 1, [9]⟩) := by
  simp [txFits]

/-! ## C40 -/

/-- C40. Accounts are written in the documented layout and read back, whatever follows. -/
theorem C40_round_trip (a : Account) (b rest : Bytes) :
    WrapAccount.enc (some a) b = .ok (b ++ accountLayout a) ∧
    WrapAccount.dec (accountLayout a ++ rest) = .ok ((accountLayout a).length, some a) :=
  ⟨wrapAccount_lawful.enc _ _ _ (wrapAccount_spec_some a), wrapAccount_lawful.dec none _ _ _ (wrapAccount_spec_some a)⟩

/-- C40. Whatever is accepted as an account is byte for byte the account's layout. -/
theorem C40_canonical (d : Bytes) (n : Nat) (w : Option Account) (h : WrapAccount.dec d = .ok (n, w)) :
    ∃ a, w = some a ∧ n ≤ d.length ∧ d.take n = accountLayout a := by
  obtain ⟨h1, h2⟩ := wrapAccount_lawful.canon none w n d h
  cases w with
  | none => simp [wrapAccount] at h2
  | some a =>
    rw [wrapAccount_spec_some a] at h2
    exact ⟨a, rfl, h1, (Option.some.inj h2).symm⟩

example : ∃ a, some (Account.basic ⟨258⟩) = some a ∧ 9 ≤ 10 ∧ [0, 0, 0, 0, 0, 0, 0, 1, 2] = accountLayout a :=
  C40_canonical [0, 0, 0, 0, 0, 0, 0, 1, 2, 77] 9 (some (.basic ⟨258⟩)) rfl

/-- C40. Every other type byte is rejected. -/
theorem C40_unknown_type (ty : UInt8) (d : Bytes) (h0 : ty ≠ 0) (h1 : ty ≠ 1) (h2 : ty ≠ 2) :
    WrapAccount.dec (ty :: d) = .err (.badType ty) := by
  simp [WrapAccount.dec, h0, h1, h2]

example : WrapAccount.dec [3, 1] = .err (.badType 3) := C40_unknown_type 3 [1] (by decide) (by decide) (by decide)

theorem digits_length (n x : Nat) : (digits n x).length = n := by simp [digits]

/-- C40. Accounts have a fixed length per type, so distinct accounts have different encodings, none a prefix of another. -/
theorem C40_length (a : Account) : (accountLayout a).length =
    match a with | .basic _ => 9 | .vesting _ => 53 | .htlc _ => 95 := by
  cases a with
  | basic t => simp [accountLayout, digits_length]
  | vesting t => have := t.owner.property; simp [accountLayout, digits_length]; omega
  | htlc t =>
    have := t.sender.property
    have := t.recipient.property
    have := t.hash.bytes.property
    simp [accountLayout, digits_length]; omega

/-! ## C46 -/

theorem bitSet_size_of_lt (l : UInt8) (h : l.toNat < 249) : BitSet.size l = (l.toNat + 7) / 8 := by
  unfold BitSet.size
  rw [UInt8.toNat_div, UInt8.toNat_add]
  have h7 : (7 : UInt8).toNat = 7 := rfl
  have h8 : (8 : UInt8).toNat = 8 := rfl
  rw [h7, h8, Nat.mod_eq_of_lt (by omega)]

theorem bitSet_size_of_ge (l : UInt8) (h : 249 ≤ l.toNat) : BitSet.size l = 0 := by
  unfold BitSet.size
  have := l.toNat_lt
  rw [UInt8.toNat_div, UInt8.toNat_add]
  have h7 : (7 : UInt8).toNat = 7 := rfl
  have h8 : (8 : UInt8).toNat = 8 := rfl
  rw [h7, h8]
  omega

/-- C46, for up to 248 bits: the set has `ceil(Len/8)` bytes and all its bits can be read; it is the `i`-th bit of the data
from the left. -/
theorem C46_bits_partial (d : Bytes) (n : Nat) (bs : BitSet) (h : BitSet.dec d = .ok (n, bs)) (hl : bs.len.toNat < 249) :
    bs.bits.length = (bs.len.toNat + 7) / 8 ∧ n = 1 + bs.bits.length ∧ bs.bits = (d.drop 1).take (n - 1) ∧
    ∀ i : UInt8, i < bs.len → ∃ x, d[1 + i.toNat / 8]? = some x ∧
      bs.bit i = .ok (x.toNat.testBit (7 - i.toNat % 8)) := by
  obtain ⟨h1, rfl, rest, rfl⟩ := BitSet.dec_ok h
  rw [bitSet_size_of_lt _ hl] at h1
  refine ⟨h1, rfl, by simp, ?_⟩
  intro i hi
  have hi' : i.toNat < bs.len.toNat := hi
  have hlt : i.toNat / 8 < bs.bits.length := by omega
  refine ⟨bs.bits[i.toNat / 8], ?_, ?_⟩
  · rw [show 1 + i.toNat / 8 = i.toNat / 8 + 1 by omega, List.cons_append, List.getElem?_cons_succ,
      List.getElem?_append_left hlt, List.getElem?_eq_getElem hlt]
  · have hd : (i / 8).toNat = i.toNat / 8 := by rw [UInt8.toNat_div]; rfl
    simp only [BitSet.bit, hd, List.getElem?_eq_getElem hlt, Out.ok.injEq]
    have key : ∀ x : UInt8, ∀ j : UInt8, (x &&& (0x80 >>> (j % 8)) != 0) = x.toNat.testBit (7 - j.toNat % 8) := by
      intro x j
      have hj : j % 8 < 8 := by
        rw [UInt8.lt_iff_toNat_lt, UInt8.toNat_mod]; exact Nat.mod_lt _ (by decide)
      have e : j.toNat % 8 = (j % 8).toNat := by rw [UInt8.toNat_mod]; rfl
      rw [e]
      generalize j % 8 = k at hj
      have hk : k.toNat < 8 := hj
      have : ∀ k' : Fin 8, ∀ x' : Fin 256, ((UInt8.ofNat x'.val) &&& (0x80 >>> (UInt8.ofNat k'.val)) != 0) =
          x'.val.testBit (7 - k'.val) := by decide +kernel
      have t := this ⟨k.toNat, hk⟩ ⟨x.toNat, x.toNat_lt⟩
      simpa using t
    exact key _ _

/-- C46. Encoding and decoding round-trip for every set whose byte slice has the size the code computes. -/
theorem C46_round_trip (bs : BitSet) (h : bs.bits.length = BitSet.size bs.len) (b rest : Bytes) :
    bs.enc b = .ok (b ++ bs.len :: bs.bits) ∧ BitSet.dec (bs.len :: bs.bits ++ rest) = .ok (1 + bs.bits.length, bs) :=
  ⟨by simp [BitSet.enc], BitSet.dec_spec bs h rest⟩

/-- C46 is false for every declared length from 249: such a set always decodes, to no bits at all, and reading any of the
declared bits panics. -/
theorem C46_violated (len : UInt8) (h : 249 ≤ len.toNat) (d : Bytes) :
    BitSet.dec (len :: d) = .ok (1, ⟨len, []⟩) ∧ ∀ i, BitSet.bit ⟨len, []⟩ i = .panic := by
  refine ⟨?_, fun i => by simp [BitSet.bit]⟩
  simp [BitSet.dec, bitSet_size_of_ge len h]

example : ∃ n bs, BitSet.dec [10, 0xff, 0x40, 7] = .ok (n, bs) ∧ bs.len.toNat < 249 ∧ bs.bits = [0xff, 0x40] :=
  ⟨3, ⟨10, [0xff, 0x40]⟩, by decide, by decide, rfl⟩

/-! ## C47 -/

/-- C47, for IPv4: encode and decode into a new variable gives the address back. -/
theorem C47_ipv4_partial (na : NetAddress) (h : na.type = 0) (hl : na.ip.length = 4) (b rest : Bytes) :
    na.enc b = .ok (b ++ 0 :: na.ip) ∧ NetAddress.dec netAddress.zero (0 :: na.ip ++ rest) = .ok (5, na) := by
  obtain ⟨ty, ip⟩ := na
  simp only at h hl
  subst h
  refine ⟨by simp [NetAddress.enc], ?_⟩
  have hp : pop 1 (0 :: ip ++ rest) = some ([0], ip ++ rest) := by simp [pop]
  simp only [NetAddress.dec, Unmarshal, decode, NumKind.size, hp]
  have hz : getNum .u8 [0] = (0 : UInt8) := by decide
  simp only [hz, if_true]
  rw [if_neg (by rw [List.length_append]; omega)]
  simp only [netAddress, List.cons_append, List.length_cons]
  rw [List.take_left' hl]
  congr 2
  omega

example := C47_ipv4_partial ⟨0, [127, 0, 0, 1]⟩ rfl rfl [] []

/-- C47 is false for every IPv6 address: the decoder loses the type, so encoding what was decoded writes 16 address bytes
under the type of IPv4, and the next decoder reads 4 of them. -/
theorem C47_ipv6_violated (ip rest : Bytes) (hl : ip.length = 16) :
    ∃ na, NetAddress.dec netAddress.zero (1 :: ip ++ rest) = .ok (17, na) ∧ na ≠ ⟨1, ip⟩ ∧
      na.enc [] = .ok (0 :: ip) ∧ NetAddress.dec netAddress.zero (0 :: ip) = .ok (5, ⟨0, ip.take 4⟩) := by
  refine ⟨⟨0, ip⟩, ?_, by simp, by simp [NetAddress.enc], ?_⟩
  · have hp : pop 1 (1 :: ip ++ rest) = some ([1], ip ++ rest) := by simp [pop]
    simp only [NetAddress.dec, Unmarshal, decode, NumKind.size, hp]
    have hz : getNum .u8 [1] = (1 : UInt8) := by decide
    simp only [hz]
    rw [if_neg (by decide), if_pos trivial, if_neg (by rw [List.length_append]; omega)]
    simp only [netAddress, List.cons_append, List.length_cons]
    rw [List.take_left' hl]
    congr 2
    omega
  · have hp : pop 1 (0 :: ip) = some ([0], ip) := by simp [pop]
    simp only [NetAddress.dec, Unmarshal, decode, NumKind.size, hp]
    have hz : getNum .u8 [0] = (0 : UInt8) := by decide
    simp only [hz, if_true]
    rw [if_neg (by omega)]
    simp only [netAddress, List.length_cons]
    congr 2
    omega

example := C47_ipv6_violated (List.replicate 15 0 ++ [1]) [] rfl

/-- C47. Unspecified and unknown addresses (types 2, 3) and everything above can never be decoded. -/
theorem C47_other_types (t : UInt8) (d : Bytes) (prev : NetAddress) (h0 : t ≠ 0) (h1 : t ≠ 1) :
    NetAddress.dec prev (t :: d) = .err (.badType t) := by
  have hp : pop 1 (t :: d) = some ([t], d) := by simp [pop]
  simp only [NetAddress.dec, Unmarshal, decode, NumKind.size, hp]
  have hz : getNum .u8 [t] = t := by
    show UInt8.ofNat (getBE [t]) = t
    simp [getBE]
  simp only [hz, if_neg h0, if_neg h1]

example : NetAddress.dec netAddress.zero [2, 1] = .err (.badType 2) := C47_other_types 2 [1] _ (by decide) (by decide)

/-! ## C48 -/

theorem header_enc_ne_panic (pa : PeerAddress) (b : Bytes) :
    ∃ r, Marshal b PeerAddressHeader.ty pa.header.toVal = .ok (b ++ r) := by
  simp only [Marshal, PeerAddressHeader.ty, PeerAddressHeader.toVal, marshal, marshalFields, fieldTags_none, netAddress,
    NetAddress.enc]
  simp only [List.append_assoc]
  exact ⟨_, rfl⟩

/-- C48 is false: no peer address can be encoded and none can be decoded, from any input. -/
theorem C48_violated (pa : PeerAddress) (b d : Bytes) :
    pa.enc b = .err .cannotMarshal ∧ ∃ e, PeerAddress.dec pa d = .err e := by
  refine ⟨?_, peerAddress_dec_fails pa d⟩
  obtain ⟨r, hr⟩ := header_enc_ne_panic pa b
  simp only [PeerAddress.enc, hr]; rfl

/-- C48, the part that works: the header alone, for IPv4 addresses, round-trips through the generic codec. -/
theorem C48_header_partial (p : PeerAddressHeader) (h : p.netAddress.type = 0) (hl : p.netAddress.ip.length = 4)
    (rest : Bytes) : ∃ bs, Marshal [] PeerAddressHeader.ty p.toVal = .ok bs ∧
      Unmarshal PeerAddressHeader.ty PeerAddressHeader.ty.zero (bs ++ rest) = .ok p.toVal rest := by
  let bs := putBE 1 p.protocol.toNat ++ (putBE 4 p.services.toNat ++ (putBE 8 p.timestamp.toNat ++
    ((0 :: p.netAddress.ip) ++ (p.publicKey.val ++ (putBE 1 p.distance.toNat ++ p.signature.val)))))
  have hm : Marshal [] PeerAddressHeader.ty p.toVal = .ok bs := by
    simp only [Marshal, PeerAddressHeader.ty, PeerAddressHeader.toVal, marshal, marshalFields, fieldTags_none, netAddress,
      NetAddress.enc, h]
    simp [bs, putNum]
  refine ⟨bs, hm, ?_⟩
  have hpk := p.publicKey.property
  have hsg := p.signature.property
  simp only [bs, List.append_assoc]
  simp only [Unmarshal, PeerAddressHeader.ty, decode, decodeFields, fieldTags_none, NumKind.size, Fields.zero, Ty.zero,
    pop_append (putBE_length _ _), runCustom]
  have hd := (C47_ipv4_partial p.netAddress h hl [] (p.publicKey.val ++ (putBE 1 p.distance.toNat ++
    (p.signature.val ++ rest)))).2
  have hdrop : (0 :: p.netAddress.ip ++ (p.publicKey.val ++ (putBE 1 p.distance.toNat ++ (p.signature.val ++ rest)))).drop 5
      = p.publicKey.val ++ (putBE 1 p.distance.toNat ++ (p.signature.val ++ rest)) :=
    List.drop_left' (by rw [List.length_cons, hl])
  have hd' : netAddress.dec netAddress.zero (0 :: p.netAddress.ip ++ (p.publicKey.val ++ (putBE 1 p.distance.toNat ++
    (p.signature.val ++ rest)))) = .ok (5, p.netAddress) := hd
  rw [hd']
  simp only
  rw [if_neg (by rw [List.length_append, List.length_cons, hl]; omega), hdrop]
  simp only [pop_append hpk, pop_append (putBE_length _ _), pop_append hsg, Res.map]
  have n8 : ∀ x : UInt8, getNum .u8 (putBE 1 x.toNat) = x := fun x => getNum_putNum .u8 x
  have n32 : ∀ x : UInt32, getNum .u32 (putBE 4 x.toNat) = x := fun x => getNum_putNum .u32 x
  have n64 : ∀ x : UInt64, getNum .u64 (putBE 8 x.toNat) = x := fun x => getNum_putNum .u64 x
  rw [n8, n32, n64, n8, ← List.append_nil p.publicKey.val, ← List.append_nil p.signature.val, copy_append, copy_append]
  rfl

/-! ## C32 -/

/-- C32, first half, is false for `EmptyMessage` behind a pointer: `Size` reports the 8 bytes of the underlying number but
`Marshal` writes nothing. -/
theorem C32_size_sound_violated (t : UInt64) (b : Bytes) :
    Size (.custom emptyMessage) t = .ok 8 ∧ Marshal b (.custom emptyMessage) t = .ok b := ⟨rfl, rfl⟩

end Nimiq.Wire
