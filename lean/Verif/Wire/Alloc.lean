import Verif.Wire.Lawful
import Verif.Beserial.Alloc
/-!
# C101 for the protocol types

No peer can make the library request more than a fixed multiple of the bytes it sends, plus some ten kilobytes.
-/
namespace Nimiq.Wire
open Beserial Beserial.Spec

/-- A lawful decoder reads at least its minimum. -/
theorem lawful_reads {c : Codec} (hc : Lawful c) {prev v : c.α} {n : Nat} {d : Bytes} (h : c.dec prev d = .ok (n, v)) :
    c.min ≤ n := by
  have h1 := hc.canon prev v n d h
  have h2 := hc.min _ _ h1.2
  rw [List.length_take] at h2
  omega

theorem bitSet_dec_ok {d : Bytes} {n : Nat} {bs : BitSet} (h : BitSet.dec d = .ok (n, bs)) :
    1 ≤ n ∧ bs.bits.length ≤ 31 := by
  cases d with
  | nil => simp [BitSet.dec] at h
  | cons l b =>
    rw [BitSet.dec] at h
    split at h
    · simp at h
    · simp only [Out.ok.injEq, Prod.mk.injEq] at h
      obtain ⟨rfl, rfl⟩ := h
      refine ⟨by omega, ?_⟩
      have := bitSet_size_le l
      rw [List.length_take]
      omega

theorem bitSet_alloc_le (d : Bytes) : BitSet.alloc d ≤ 31 := by
  cases d with
  | nil => simp [BitSet.alloc]
  | cons l b => exact bitSet_size_le l

theorem frugal_bitSet : Frugal bitSet := by
  intro d
  have h := bitSet_alloc_le d
  refine ⟨by simpa [bitSet] using h, ?_⟩
  intro prev n v hd _
  exact ⟨by simpa [bitSet] using h, (bitSet_dec_ok hd).1⟩

theorem frugal_hash : Frugal hash := by
  intro d
  refine ⟨by simp [hash], ?_⟩
  intro prev n v hd _
  exact ⟨by simp [hash], lawful_reads hash_lawful hd⟩

theorem frugal_merklePath : Frugal merklePath := by
  intro d
  have h : MerklePath.alloc d ≤ 31 + 32 * 255 := by
    rw [MerklePath.alloc]
    have := bitSet_alloc_le d
    cases hd : BitSet.dec d with
    | ok nb =>
      dsimp only
      have := UInt8.toNat_lt nb.2.len
      generalize nb.2.len.toNat = x at *
      show _ + 32 * x ≤ _
      omega
    | err e => dsimp only; omega
    | panic => dsimp only; omega
  refine ⟨by simpa [merklePath] using h, ?_⟩
  intro prev n v hd _
  exact ⟨by simpa [merklePath] using h, lawful_reads merklePath_lawful hd⟩

theorem interlinkLoop_len (r : BitSet) : ∀ (n : Nat) (i : UInt8) (h : HashRef) (idx : Nat) (comp : List Hash32) (b : Bytes)
    (res : List HashRef × List Hash32 × Bytes), interlinkLoop r n i h idx comp b = .ok res → res.2.2.length ≤ b.length
  | 0, i, h, idx, comp, b, res, hr => by
    simp only [interlinkLoop, Out.ok.injEq] at hr
    rw [← hr]; exact Nat.le_refl _
  | n + 1, i, h, idx, comp, b, res, hr => by
    rw [interlinkLoop] at hr
    cases hb : r.bit i with
    | panic => rw [hb] at hr; simp at hr
    | err e => rw [hb] at hr; simp at hr
    | ok x =>
      rw [hb] at hr
      cases x with
      | true =>
        dsimp only at hr
        cases hl : interlinkLoop r n (i + 1) h idx comp b with
        | ok res' =>
          rw [hl] at hr
          have := interlinkLoop_len r n _ _ _ _ _ _ hl
          simp only [Out.ok.injEq] at hr
          rw [← hr]
          exact this
        | err e => rw [hl] at hr; simp at hr
        | panic => rw [hl] at hr; simp at hr
      | false =>
        dsimp only at hr
        split at hr
        · simp at hr
        · split at hr
          · simp at hr
          · split at hr
            · rename_i hl
              have := interlinkLoop_len r n _ _ _ _ _ _ hl
              simp only [Out.ok.injEq] at hr
              rw [← hr]
              rw [List.length_drop] at this
              dsimp only at this ⊢
              omega
            · simp at hr
            · simp at hr

theorem compressedCount_le : ∀ (bits : Bytes), compressedCount bits ≤ 8 * bits.length
  | [] => by simp [compressedCount]
  | x :: xs => by
    have := compressedCount_le xs
    simp only [compressedCount, List.map_cons, List.sum_cons, List.length_cons] at this ⊢
    omega

theorem frugal_interlink : Frugal interlink := by
  intro d
  have h : Interlink.alloc d ≤ 31 + (8 * 255 + 32 * 248) := by
    rw [Interlink.alloc]
    have := bitSet_alloc_le d
    cases hd : BitSet.dec d with
    | ok nb =>
      dsimp only
      have h1 := UInt8.toNat_lt nb.2.len
      have h2 := compressedCount_le nb.2.bits
      have h3 := (bitSet_dec_ok hd).2
      generalize nb.2.len.toNat = x at *
      generalize compressedCount nb.2.bits = y at *
      show _ + (8 * x + 32 * y) ≤ _
      omega
    | err e => dsimp only; omega
    | panic => dsimp only; omega
  refine ⟨by simpa [interlink] using h, ?_⟩
  intro prev n v hd _
  refine ⟨by simpa [interlink] using h, ?_⟩
  have hd : Interlink.dec prev d = .ok (n, v) := hd
  unfold Interlink.dec at hd
  cases hb : BitSet.dec d with
  | ok nb =>
    obtain ⟨m, br⟩ := nb
    rw [hb] at hd
    dsimp only at hd
    split at hd
    · rename_i hl
      have h1 := interlinkLoop_len _ _ _ _ _ _ _ _ hl
      rw [List.length_drop] at h1
      dsimp only at h1
      have hd := congrArg Prod.fst (Out.ok.inj hd)
      dsimp only at hd
      have h2 := (bitSet_dec_ok hb).1
      have hne : d.length ≠ 0 := by
        intro h0
        rw [List.length_eq_zero_iff] at h0
        rw [h0] at hb
        simp [BitSet.dec] at hb
      show 1 ≤ n
      omega
    · simp at hd
    · simp at hd
  | err e => rw [hb] at hd; simp at hd
  | panic => rw [hb] at hd; simp at hd

theorem thrifty_basicTx : Thrifty BasicTx.ty := by simp [BasicTx.ty, Thrifty, ThriftyFields]
theorem thrifty_extendedTx : Thrifty ExtendedTx.ty := by simp [ExtendedTx.ty, Thrifty, ThriftyFields]

theorem unmarshalAt_rest {t : Ty} {prev v : t.Val} {n0 n : Nat} {d : Bytes} (h : unmarshalAt t prev n0 d = .ok (n, v)) :
    ∃ rest, Unmarshal t prev d = .ok v rest ∧ n = n0 + (d.length - rest.length) := by
  rw [unmarshalAt] at h
  cases hu : Unmarshal t prev d with
  | ok w rest =>
    rw [hu] at h
    simp only [Out.ok.injEq, Prod.mk.injEq] at h
    obtain ⟨rfl, rfl⟩ := h
    exact ⟨rest, rfl, rfl⟩
  | err e r => rw [hu] at h; simp at h
  | panic => rw [hu] at h; simp at h

theorem frugal_wrapTx : Frugal wrapTx := by
  intro d
  cases d with
  | nil => exact ⟨by simp [wrapTx, WrapTx.alloc], fun prev n v hd _ => by simp [wrapTx, WrapTx.dec] at hd⟩
  | cons ty buf =>
    have hB := C101_linear _ thrifty_basicTx BasicTx.ty.zero buf
    have hE := C101_linear _ thrifty_extendedTx ExtendedTx.ty.zero buf
    rw [show fixedMem BasicTx.ty = 0 from rfl, show perByte BasicTx.ty = 0 from rfl] at hB
    rw [show fixedMem ExtendedTx.ty = 0 from rfl, show perByte ExtendedTx.ty = 1 from rfl] at hE
    have sB : BasicTx.ty.size = 144 := rfl
    have sE : ExtendedTx.ty.size = 120 := rfl
    show WrapTx.alloc (ty :: buf) ≤ 144 + 1 * (ty :: buf).length ∧ ∀ (prev : Option Tx) (n : Nat) (v : Option Tx),
      WrapTx.dec (ty :: buf) = .ok (n, v) → n ≤ (ty :: buf).length → WrapTx.alloc (ty :: buf) ≤ 144 + 1 * n ∧ 1 ≤ n
    rw [WrapTx.alloc, WrapTx.dec, List.length_cons]
    by_cases h0 : ty = 0
    · rw [if_pos h0, if_pos h0]
      refine ⟨by omega, ?_⟩
      intro prev n v hd _
      split at hd
      · rename_i hu
        simp only [Out.ok.injEq, Prod.mk.injEq] at hd
        obtain ⟨rest, hr, hn⟩ := unmarshalAt_rest hu
        omega
      · simp at hd
      · simp at hd
    · rw [if_neg h0, if_neg h0]
      by_cases h1 : ty = 1
      · rw [if_pos h1, if_pos h1]
        refine ⟨by omega, ?_⟩
        intro prev n v hd _
        split at hd
        · rename_i hu
          simp only [Out.ok.injEq, Prod.mk.injEq] at hd
          obtain ⟨rest, hr, hn⟩ := unmarshalAt_rest hu
          have := C101_linear_in_read _ thrifty_extendedTx ExtendedTx.ty.zero _ buf rest hr
          rw [show fixedMem ExtendedTx.ty = 0 from rfl, show perByte ExtendedTx.ty = 1 from rfl] at this
          omega
        · simp at hd
        · simp at hd
      · rw [if_neg h1, if_neg h1]
        exact ⟨Nat.zero_le _, fun prev n v hd _ => by simp at hd⟩

theorem thrifty_basicAccount : Thrifty BasicAccount.ty := by simp [BasicAccount.ty, Thrifty, ThriftyFields]
theorem thrifty_vestingAccount : Thrifty VestingAccount.ty := by simp [VestingAccount.ty, Thrifty, ThriftyFields]
theorem thrifty_htlcAccount : Thrifty HTLCAccount.ty := by simp [HTLCAccount.ty, Thrifty, ThriftyFields, frugal_hash]

theorem frugal_wrapAccount : Frugal wrapAccount := by
  intro d
  have h : WrapAccount.alloc d ≤ 96 := by
    cases d with
    | nil => simp [WrapAccount.alloc]
    | cons ty buf =>
      have hB := C101_linear _ thrifty_basicAccount BasicAccount.ty.zero buf
      have hV := C101_linear _ thrifty_vestingAccount VestingAccount.ty.zero buf
      have hH := C101_linear _ thrifty_htlcAccount HTLCAccount.ty.zero buf
      rw [show fixedMem BasicAccount.ty = 0 from rfl, show perByte BasicAccount.ty = 0 from rfl] at hB
      rw [show fixedMem VestingAccount.ty = 0 from rfl, show perByte VestingAccount.ty = 0 from rfl] at hV
      rw [show fixedMem HTLCAccount.ty = 0 from rfl, show perByte HTLCAccount.ty = 0 from rfl] at hH
      have sB : BasicAccount.ty.size = 8 := rfl
      have sV : VestingAccount.ty.size = 56 := rfl
      have sH : HTLCAccount.ty.size = 96 := rfl
      rw [WrapAccount.alloc]
      split
      · omega
      · split
        · omega
        · split
          · omega
          · omega
  refine ⟨by simpa [wrapAccount] using h, ?_⟩
  intro prev n v hd _
  exact ⟨by simpa [wrapAccount] using h, lawful_reads wrapAccount_lawful hd⟩

theorem netAddress_alloc_le (d : Bytes) : NetAddress.alloc d ≤ 16 := by
  rw [NetAddress.alloc]
  split
  · split
    · omega
    · split <;> omega
  · omega

theorem frugal_netAddress : Frugal netAddress := by
  intro d
  have h := netAddress_alloc_le d
  refine ⟨by simpa [netAddress] using h, ?_⟩
  intro prev n v hd _
  refine ⟨by simpa [netAddress] using h, ?_⟩
  have hd : NetAddress.dec prev d = .ok (n, v) := hd
  show 1 ≤ n
  unfold NetAddress.dec at hd
  split at hd
  · simp at hd
  · simp at hd
  · dsimp only at hd
    split at hd
    · split at hd
      · simp at hd
      · have hd := congrArg Prod.fst (Out.ok.inj hd); dsimp only at hd; omega
    · split at hd
      · split at hd
        · simp at hd
        · have hd := congrArg Prod.fst (Out.ok.inj hd); dsimp only at hd; omega
      · simp at hd

theorem thrifty_peerAddressHeader : Thrifty PeerAddressHeader.ty := by
  simp [PeerAddressHeader.ty, Thrifty, ThriftyFields, frugal_netAddress]

theorem frugal_peerAddress : Frugal peerAddress := by
  intro d
  have h : PeerAddress.alloc d ≤ 16 + 24 := by
    have hB := C101_linear _ thrifty_peerAddressHeader PeerAddressHeader.ty.zero d
    rw [show fixedMem PeerAddressHeader.ty = 16 from rfl, show perByte PeerAddressHeader.ty = 0 from rfl] at hB
    rw [PeerAddress.alloc]
    split
    · split <;> omega
    · omega
  refine ⟨by simpa [peerAddress] using h, ?_⟩
  intro prev n v hd _
  exact ⟨by simpa [peerAddress] using h, lawful_reads peerAddress_lawful hd⟩

theorem frugal_ping : Frugal ping := by
  intro d
  refine ⟨by simp [ping], ?_⟩
  intro prev n v hd _
  refine ⟨by simp [ping], ?_⟩
  have hd : (if d.length < 4 then Out.err .eof else .ok (4, { prev with nonce := UInt32.ofNat (getBE (d.take 4)) })) =
    Out.ok (n, v) := hd
  split at hd
  · simp at hd
  · have hd := congrArg Prod.fst (Out.ok.inj hd)
    dsimp only at hd
    show 4 ≤ n
    omega

theorem thrifty_body : Thrifty bodyTy := by
  have h1 : 1 ≤ minSize (.custom wrapTx) {} := Nat.le_refl 1
  have h2 : 1 ≤ minSize accountPrunedTy {} := by simp [accountPrunedTy, minSize, minFields, fieldTags]; omega
  have h3 : Thrifty accountPrunedTy := by simp [accountPrunedTy, Thrifty, ThriftyFields, frugal_wrapAccount]
  simp only [bodyTy, Thrifty, ThriftyFields, frugal_wrapTx, h1, h2, h3, and_self]
theorem thrifty_block : Thrifty blockTy := by
  have := thrifty_body
  simp only [blockTy, headerTy, Thrifty, ThriftyFields, frugal_interlink, this]
  simp [bodyTy, isCustom]
theorem thrifty_version : Thrifty versionTy := by simp [versionTy, Thrifty, ThriftyFields, frugal_peerAddress]
theorem thrifty_inv : Thrifty invTy := by simp [invTy, Thrifty, ThriftyFields, minSize, minFields, fieldTags, numBytes]
theorem thrifty_getBlocks : Thrifty getBlocksTy := by simp [getBlocksTy, Thrifty, ThriftyFields, minSize]
theorem thrifty_blockMsg : Thrifty blockMsgTy := by simp [blockMsgTy, Thrifty, ThriftyFields, thrifty_block]
theorem thrifty_headMsg : Thrifty headMsgTy := by simp [headMsgTy, headerTy, Thrifty, ThriftyFields]
theorem thrifty_txMsg : Thrifty txMsgTy := by simp [txMsgTy, Thrifty, ThriftyFields, frugal_wrapTx]
theorem thrifty_addr : Thrifty addrTy := by
  have h1 : 1 ≤ minSize (.custom peerAddress) {} := Nat.le_refl 1
  simp only [addrTy, Thrifty, ThriftyFields, frugal_peerAddress, h1, and_self]
theorem thrifty_getAddr : Thrifty getAddrTy := by simp [getAddrTy, Thrifty, ThriftyFields]
theorem thrifty_verAck : Thrifty verAckTy := by simp [verAckTy, Thrifty, ThriftyFields]

/-- **C101** for blocks, as read from a file or a peer: at most 10103 bytes and 161 bytes per byte of input. -/
theorem C101_block (prev : blockTy.Val) (data : Bytes) :
    unmarshalAlloc blockTy prev data ≤ 10103 + 161 * data.length :=
  C101_linear blockTy thrifty_block prev data

/-- Transactions and accounts need a constant and their own bytes. -/
theorem C101_tx (prev : Option Tx) (data : Bytes) :
    unmarshalAlloc (.custom wrapTx) prev data ≤ 144 + data.length := by
  have := C101_linear (.custom wrapTx) frugal_wrapTx prev data
  rw [show fixedMem (.custom wrapTx) = 144 from rfl, show perByte (.custom wrapTx) = 1 from rfl] at this
  omega
theorem C101_account (prev : Option Account) (data : Bytes) :
    unmarshalAlloc (.custom wrapAccount) prev data ≤ 96 := by
  have := C101_linear (.custom wrapAccount) frugal_wrapAccount prev data
  rw [show fixedMem (.custom wrapAccount) = 96 from rfl, show perByte (.custom wrapAccount) = 0 from rfl] at this
  omega

/-- **C101** for messages: whatever the message type and the payload are, `UnmarshalMessage` requests at most 10375 bytes
and 208 bytes per byte of payload. -/
theorem C101_message (msgType : UInt64) (buf : Bytes) : messageAlloc msgType buf ≤ 10375 + 208 * buf.length := by
  have hb := C101_linear _ thrifty_blockMsg blockMsgTy.zero buf
  have hv := C101_linear _ thrifty_version versionTy.zero buf
  have hi := C101_linear _ thrifty_inv (newInv msgType) buf
  have hg := C101_linear _ thrifty_getBlocks getBlocksTy.zero buf
  have hh := C101_linear _ thrifty_headMsg headMsgTy.zero buf
  have ht := C101_linear _ thrifty_txMsg txMsgTy.zero buf
  have ha := C101_linear _ thrifty_addr addrTy.zero buf
  have hga := C101_linear _ thrifty_getAddr getAddrTy.zero buf
  have hva := C101_linear _ thrifty_verAck verAckTy.zero buf
  rw [show fixedMem blockMsgTy = 10103 from rfl, show perByte blockMsgTy = 161 from rfl] at hb
  rw [show fixedMem versionTy = 40 from rfl, show perByte versionTy = 1 from rfl] at hv
  rw [show fixedMem invTy = 0 from rfl, show perByte invTy = 36 from rfl] at hi
  rw [show fixedMem getBlocksTy = 0 from rfl, show perByte getBlocksTy = 32 from rfl] at hg
  rw [show fixedMem headMsgTy = 0 from rfl, show perByte headMsgTy = 0 from rfl] at hh
  rw [show fixedMem txMsgTy = 144 from rfl, show perByte txMsgTy = 1 from rfl] at ht
  rw [show fixedMem addrTy = 0 from rfl, show perByte addrTy = 208 from rfl] at ha
  rw [show fixedMem getAddrTy = 0 from rfl, show perByte getAddrTy = 0 from rfl] at hga
  rw [show fixedMem verAckTy = 0 from rfl, show perByte verAckTy = 0 from rfl] at hva
  have sb : blockMsgTy.size = 272 := rfl
  have sv : versionTy.size = 288 := rfl
  have si : invTy.size = 32 := rfl
  have sg : getBlocksTy.size = 32 := rfl
  have sh : headMsgTy.size = 148 := rfl
  have st : txMsgTy.size = 16 := rfl
  have sa : addrTy.size = 24 := rfl
  have sga : getAddrTy.size = 12 := rfl
  have sva : verAckTy.size = 96 := rfl
  have sp : (Ty.custom ping).size + ping.mem.alloc buf = 8 := rfl
  rw [messageAlloc, sp]
  repeat' split
  all_goals omega

/-- Not vacuous: a `getBlocks` payload that announces 65535 locators and has none requests only the message itself, one
with two locators requests them, and an inventory message (whose slice has no length tag) nothing beyond itself. -/
example : messageAlloc 5 [255, 255, 1] = 32 := rfl
example : messageAlloc 5 ([0, 2] ++ List.replicate 64 7 ++ [0, 1, 1]) = 32 + 64 := rfl
example : messageAlloc 1 [0, 0, 0, 0, 0, 0, 0, 1, 255] = 32 := rfl

end Nimiq.Wire
