import Verif.Wire.Alloc
import Verif.Beserial.Work
/-!
# C119 for the protocol types

The time a peer or a file can make the decoders spend is at most a fixed multiple of the bytes it supplies.
-/
namespace Nimiq.Wire
open Beserial Beserial.Spec

theorem bitSet_work_le (d : Bytes) : BitSet.work d ≤ d.length ∧ ∀ n v, BitSet.dec d = .ok (n, v) →
    n = 1 + BitSet.work d ∧ v.bits.length = BitSet.work d ∧ n ≤ d.length := by
  cases d with
  | nil => exact ⟨by simp [BitSet.work], fun n v h => by simp [BitSet.dec] at h⟩
  | cons l b =>
    rw [BitSet.work, BitSet.dec, List.length_cons]
    by_cases h0 : b.length < BitSet.size l
    · rw [if_pos h0, if_pos h0]
      exact ⟨by omega, fun n v h => by simp at h⟩
    · rw [if_neg h0, if_neg h0]
      refine ⟨by omega, ?_⟩
      intro n v h
      simp only [Out.ok.injEq, Prod.mk.injEq] at h
      obtain ⟨rfl, rfl⟩ := h
      rw [List.length_take]
      omega

theorem quick_bitSet : Quick bitSet := by
  intro d
  have h := bitSet_work_le d
  show BitSet.work d ≤ 0 + 1 * d.length ∧ ∀ (prev : BitSet) n v, BitSet.dec d = .ok (n, v) → _ → BitSet.work d ≤ 0 + 1 * n
  exact ⟨by omega, fun prev n v hd _ => by have := (h.2 n v hd).1; omega⟩

theorem quick_hash : Quick hash := by
  intro d
  refine ⟨?_, ?_⟩
  · show (if d.length < 33 then 0 else 32) ≤ 0 + 1 * d.length
    split <;> omega
  · intro prev n v hd _
    have h : 33 ≤ n := lawful_reads hash_lawful hd
    show (if d.length < 33 then 0 else 32) ≤ 0 + 1 * n
    split <;> omega

theorem readHashesWork_le : ∀ (n : Nat) (b : Bytes), readHashesWork n b ≤ 1 + 2 * b.length ∧
    ∀ hs r, readHashes n b = some (hs, r) → readHashesWork n b + 2 * r.length ≤ 2 * b.length ∧ r.length ≤ b.length
  | 0, b => by
    rw [readHashesWork, readHashes]
    exact ⟨by omega, fun hs r h => by simp only [Option.some.injEq, Prod.mk.injEq] at h; rw [h.2]; omega⟩
  | n + 1, b => by
    rw [readHashesWork, readHashes]
    by_cases h0 : b.length < 32
    · rw [if_pos h0, if_pos h0]
      exact ⟨by omega, fun hs r h => by simp at h⟩
    · rw [if_neg h0, if_neg h0]
      have ih := readHashesWork_le n (b.drop 32)
      rw [List.length_drop] at ih
      refine ⟨by have := ih.1; omega, ?_⟩
      intro hs r h
      cases hr : readHashes n (b.drop 32) with
      | none => rw [hr] at h; simp at h
      | some p =>
        obtain ⟨hs', r'⟩ := p
        rw [hr] at h
        simp only [Option.some.injEq, Prod.mk.injEq] at h
        have := ih.2 _ _ hr
        rw [← h.2]
        omega

theorem quick_merklePath : Quick merklePath := by
  intro d
  show MerklePath.work d ≤ 1 + 2 * d.length ∧
    ∀ (prev : MerklePath) n v, MerklePath.dec d = .ok (n, v) → _ → MerklePath.work d ≤ 1 + 2 * n
  have hb := bitSet_work_le d
  rw [MerklePath.work, MerklePath.dec]
  cases hd : BitSet.dec d with
  | ok nb =>
    obtain ⟨m, br⟩ := nb
    have h1 := hb.2 _ _ hd
    have h2 := readHashesWork_le br.len.toNat (d.drop m)
    rw [List.length_drop] at h2
    dsimp only
    refine ⟨by have := h2.1; omega, ?_⟩
    intro prev n v h _
    cases hr : readHashes br.len.toNat (d.drop m) with
    | none => rw [hr] at h; simp at h
    | some p =>
      obtain ⟨hs, r⟩ := p
      rw [hr] at h
      simp only [Out.ok.injEq, Prod.mk.injEq] at h
      have := h2.2 _ _ hr
      omega
  | err e => exact ⟨by dsimp only; omega, fun prev n v h => by simp at h⟩
  | panic => exact ⟨by dsimp only; omega, fun prev n v h => by simp at h⟩

theorem interlinkWork_le (r : BitSet) : ∀ (n : Nat) (i : UInt8) (idx count : Nat) (b : Bytes),
    interlinkWork r n i idx count b ≤ n + b.length ∧
    ∀ (h : HashRef) (comp : List Hash32) res, comp.length = count → interlinkLoop r n i h idx comp b = .ok res →
      interlinkWork r n i idx count b + res.2.2.length ≤ n + b.length ∧ res.2.2.length ≤ b.length
  | 0, i, idx, count, b => by
    rw [interlinkWork]
    refine ⟨by omega, ?_⟩
    intro h comp res _ hr
    simp only [interlinkLoop, Out.ok.injEq] at hr
    rw [← hr]
    dsimp only
    omega
  | n + 1, i, idx, count, b => by
    rw [interlinkWork]
    cases hb : r.bit i with
    | panic =>
      refine ⟨by dsimp only; omega, ?_⟩
      intro h comp res _ hr
      rw [interlinkLoop, hb] at hr
      simp at hr
    | err e =>
      refine ⟨by dsimp only; omega, ?_⟩
      intro h comp res _ hr
      rw [interlinkLoop, hb] at hr
      simp at hr
    | ok x =>
      cases x with
      | true =>
        have ih := interlinkWork_le r n (i + 1) idx count b
        dsimp only
        refine ⟨by have := ih.1; omega, ?_⟩
        intro h comp res hc hr
        rw [interlinkLoop, hb] at hr
        dsimp only at hr
        cases hl : interlinkLoop r n (i + 1) h idx comp b with
        | ok res' =>
          obtain ⟨hs', comp', b'⟩ := res'
          rw [hl] at hr
          have := ih.2 _ _ _ hc hl
          simp only [Out.ok.injEq] at hr
          rw [← hr]
          dsimp only at this ⊢
          omega
        | err e => rw [hl] at hr; simp at hr
        | panic => rw [hl] at hr; simp at hr
      | false =>
        dsimp only
        by_cases hi : idx ≥ count
        · rw [if_pos hi]
          refine ⟨by omega, ?_⟩
          intro h comp res hc hr
          rw [interlinkLoop, hb] at hr
          dsimp only at hr
          rw [if_pos (by omega)] at hr
          simp at hr
        · rw [if_neg hi]
          by_cases h0 : b.length < 32
          · rw [if_pos h0]
            refine ⟨by omega, ?_⟩
            intro h comp res hc hr
            rw [interlinkLoop, hb] at hr
            dsimp only at hr
            rw [if_neg (by omega), if_pos h0] at hr
            simp at hr
          · rw [if_neg h0]
            have ih := interlinkWork_le r n (i + 1) (idx + 1) count (b.drop 32)
            rw [List.length_drop] at ih
            refine ⟨by have := ih.1; omega, ?_⟩
            intro h comp res hc hr
            rw [interlinkLoop, hb] at hr
            dsimp only at hr
            rw [if_neg (by omega), if_neg h0] at hr
            cases hl : interlinkLoop r n (i + 1) (.at idx) (idx + 1) (comp.set idx (BArr.copy 32 (b.drop 32))) (b.drop 32) with
            | ok res' =>
              obtain ⟨hs', comp', b'⟩ := res'
              rw [hl] at hr
              have := ih.2 _ _ _ (by rw [List.length_set]; exact hc) hl
              simp only [Out.ok.injEq] at hr
              rw [← hr]
              dsimp only at this ⊢
              omega
            | err e => rw [hl] at hr; simp at hr
            | panic => rw [hl] at hr; simp at hr

theorem quick_interlink : Quick interlink := by
  intro d
  show Interlink.work d ≤ 256 + 2 * d.length ∧
    ∀ (prev : Interlink) n v, Interlink.dec prev d = .ok (n, v) → _ → Interlink.work d ≤ 256 + 2 * n
  have hb := bitSet_work_le d
  rw [Interlink.work]
  unfold Interlink.dec
  cases hd : BitSet.dec d with
  | ok nb =>
    obtain ⟨m, br⟩ := nb
    have h1 := hb.2 _ _ hd
    have h2 := interlinkWork_le br br.len.toNat 0 0 (compressedCount br.bits) (d.drop m)
    rw [List.length_drop] at h2
    have h3 := UInt8.toNat_lt br.len
    dsimp only
    generalize interlinkWork br br.len.toNat 0 0 (compressedCount br.bits) (d.drop m) = W at h2 ⊢
    have h6 : br.bits.length + W = BitSet.work d + W := by rw [h1.2.1]
    refine ⟨by have := h2.1; rw [h6]; omega, ?_⟩
    intro prev n v h _
    rw [h6]
    cases hl : interlinkLoop br br.len.toNat 0 .prev 0 (List.replicate (compressedCount br.bits) (BArr.zero 32)) (d.drop m) with
    | ok res =>
      obtain ⟨hs, comp, b'⟩ := res
      rw [hl] at h
      have h4 := h2.2 _ _ _ List.length_replicate hl
      have h5 := congrArg Prod.fst (Out.ok.inj h)
      dsimp only at h4 h5
      omega
    | err e => rw [hl] at h; simp at h
    | panic => rw [hl] at h; simp at h
  | err e => exact ⟨by dsimp only; omega, fun prev n v h => by simp at h⟩
  | panic => exact ⟨by dsimp only; omega, fun prev n v h => by simp at h⟩

theorem swift_basicTx : Swift BasicTx.ty := by simp [BasicTx.ty, Swift, SwiftFields]
theorem swift_extendedTx : Swift ExtendedTx.ty := by simp [ExtendedTx.ty, Swift, SwiftFields]
theorem swift_basicAccount : Swift BasicAccount.ty := by simp [BasicAccount.ty, Swift, SwiftFields]
theorem swift_vestingAccount : Swift VestingAccount.ty := by simp [VestingAccount.ty, Swift, SwiftFields]
theorem swift_htlcAccount : Swift HTLCAccount.ty := by simp [HTLCAccount.ty, Swift, SwiftFields, quick_hash]

/-- What `unmarshalAt` reads bounds what it does. -/
theorem work_at {t : Ty} (ht : Thrifty t) (hq : Swift t) {B R : Nat} (hB : fixedWork t ≤ B) (hR : workRate t ≤ R)
    (prev : t.Val) (d : Bytes) : unmarshalWork t prev d ≤ B + R * d.length ∧
    ∀ n v, unmarshalAt t prev 1 d = .ok (n, v) → unmarshalWork t prev d ≤ B + R * n := by
  refine ⟨?_, ?_⟩
  · have h1 := C119_linear t ht hq prev d
    have h2 : workRate t * d.length ≤ R * d.length := Nat.mul_le_mul_right _ hR
    omega
  · intro n v h
    obtain ⟨rest, hr, hn⟩ := unmarshalAt_rest h
    have h1 := C119_linear_in_read t ht hq prev v d rest hr
    have h2 : workRate t * (d.length - rest.length) ≤ R * n := Nat.mul_le_mul hR (by omega)
    omega

theorem quick_wrapTx : Quick wrapTx := by
  intro d
  cases d with
  | nil => exact ⟨by simp [wrapTx, WrapTx.work], fun prev n v hd _ => by simp [wrapTx, WrapTx.dec] at hd⟩
  | cons ty buf =>
    show WrapTx.work (ty :: buf) ≤ 12 + 1 * (ty :: buf).length ∧ ∀ (prev : Option Tx) (n : Nat) (v : Option Tx),
      WrapTx.dec (ty :: buf) = .ok (n, v) → n ≤ (ty :: buf).length → WrapTx.work (ty :: buf) ≤ 12 + 1 * n
    have hB := work_at thrifty_basicTx swift_basicTx (B := 12) (R := 1) (by decide) (by decide) BasicTx.ty.zero buf
    have hE := work_at thrifty_extendedTx swift_extendedTx (B := 12) (R := 1) (by decide) (by decide) ExtendedTx.ty.zero buf
    rw [WrapTx.work, WrapTx.dec, List.length_cons]
    by_cases h0 : ty = 0
    · rw [if_pos h0, if_pos h0]
      refine ⟨by have := hB.1; omega, ?_⟩
      intro prev n v hd _
      split at hd
      · rename_i hu
        simp only [Out.ok.injEq, Prod.mk.injEq] at hd
        have := hB.2 _ _ hu
        omega
      · simp at hd
      · simp at hd
    · rw [if_neg h0, if_neg h0]
      by_cases h1 : ty = 1
      · rw [if_pos h1, if_pos h1]
        refine ⟨by have := hE.1; omega, ?_⟩
        intro prev n v hd _
        split at hd
        · rename_i hu
          simp only [Out.ok.injEq, Prod.mk.injEq] at hd
          have := hE.2 _ _ hu
          omega
        · simp at hd
        · simp at hd
      · rw [if_neg h1, if_neg h1]
        exact ⟨Nat.zero_le _, fun prev n v hd _ => by simp at hd⟩

theorem quick_wrapAccount : Quick wrapAccount := by
  intro d
  cases d with
  | nil => exact ⟨by simp [wrapAccount, WrapAccount.work], fun prev n v hd _ => by simp [wrapAccount, WrapAccount.dec] at hd⟩
  | cons ty buf =>
    show WrapAccount.work (ty :: buf) ≤ 8 + 1 * (ty :: buf).length ∧ ∀ (prev : Option Account) (n : Nat) (v : Option Account),
      WrapAccount.dec (ty :: buf) = .ok (n, v) → n ≤ (ty :: buf).length → WrapAccount.work (ty :: buf) ≤ 8 + 1 * n
    have hB := work_at thrifty_basicAccount swift_basicAccount (B := 8) (R := 1) (by decide) (by decide)
      BasicAccount.ty.zero buf
    have hV := work_at thrifty_vestingAccount swift_vestingAccount (B := 8) (R := 1) (by decide) (by decide)
      VestingAccount.ty.zero buf
    have hH := work_at thrifty_htlcAccount swift_htlcAccount (B := 8) (R := 1) (by decide) (by decide)
      HTLCAccount.ty.zero buf
    rw [WrapAccount.work, WrapAccount.dec, List.length_cons]
    by_cases h0 : ty = 0
    · rw [if_pos h0, if_pos h0]
      refine ⟨by have := hB.1; omega, ?_⟩
      intro prev n v hd _
      split at hd
      · rename_i hu
        simp only [Out.ok.injEq, Prod.mk.injEq] at hd
        have := hB.2 _ _ hu
        omega
      · simp at hd
      · simp at hd
    · rw [if_neg h0, if_neg h0]
      by_cases h1 : ty = 1
      · rw [if_pos h1, if_pos h1]
        refine ⟨by have := hV.1; omega, ?_⟩
        intro prev n v hd _
        split at hd
        · rename_i hu
          simp only [Out.ok.injEq, Prod.mk.injEq] at hd
          have := hV.2 _ _ hu
          omega
        · simp at hd
        · simp at hd
      · rw [if_neg h1, if_neg h1]
        by_cases h2 : ty = 2
        · rw [if_pos h2, if_pos h2]
          refine ⟨by have := hH.1; omega, ?_⟩
          intro prev n v hd _
          split at hd
          · rename_i hu
            simp only [Out.ok.injEq, Prod.mk.injEq] at hd
            have := hH.2 _ _ hu
            omega
          · simp at hd
          · simp at hd
        · rw [if_neg h2, if_neg h2]
          exact ⟨Nat.zero_le _, fun prev n v hd _ => by simp at hd⟩

theorem quick_netAddress : Quick netAddress := by
  intro d
  show NetAddress.work d ≤ 1 + 1 * d.length ∧ ∀ (prev : NetAddress) n v, NetAddress.dec prev d = .ok (n, v) → _ →
    NetAddress.work d ≤ 1 + 1 * n
  have h1 : unmarshalWork (.num .u8) (0 : UInt8) d = 1 := by simp [unmarshalWork, work]
  rw [NetAddress.work, h1]
  unfold NetAddress.dec
  cases hu : Unmarshal (.num .u8) (0 : UInt8) d with
  | ok t b =>
    have hl := decode_ok_len (.num .u8) {} (0 : UInt8) t d b hu
    dsimp only
    refine ⟨by repeat' split
               all_goals omega, ?_⟩
    intro prev n v h _
    by_cases h0 : t = 0
    · simp only [if_pos h0] at h ⊢
      by_cases h4 : b.length < 4
      · rw [if_pos h4] at h; simp at h
      · rw [if_neg h4] at h ⊢
        have := congrArg Prod.fst (Out.ok.inj h); dsimp only at this; omega
    · simp only [if_neg h0] at h ⊢
      by_cases h1 : t = 1
      · simp only [if_pos h1] at h ⊢
        by_cases h16 : b.length < 16
        · rw [if_pos h16] at h; simp at h
        · rw [if_neg h16] at h ⊢
          have := congrArg Prod.fst (Out.ok.inj h); dsimp only at this; omega
      · simp only [if_neg h1] at h
        simp at h
  | err e r => exact ⟨by dsimp only; omega, fun prev n v h => by simp at h⟩
  | panic => exact ⟨by dsimp only; omega, fun prev n v h => by simp at h⟩

theorem swift_peerAddressHeader : Swift PeerAddressHeader.ty := by
  simp [PeerAddressHeader.ty, Swift, SwiftFields, quick_netAddress]

theorem quick_peerAddress : Quick peerAddress := by
  intro d
  show PeerAddress.work d ≤ 10 + 1 * d.length ∧ ∀ (prev : PeerAddress) n v, PeerAddress.dec prev d = .ok (n, v) → _ →
    PeerAddress.work d ≤ 10 + 1 * n
  have hW := C119_linear _ thrifty_peerAddressHeader swift_peerAddressHeader PeerAddressHeader.ty.zero d
  rw [show fixedWork PeerAddressHeader.ty = 9 from rfl, show workRate PeerAddressHeader.ty = 1 from rfl] at hW
  refine ⟨?_, ?_⟩
  · have hd1 : ∀ r, unmarshalWork detailTy none r = 1 := fun r => rfl
    have hd2 : ∀ r, unmarshalWork detailTy (some ⟨[], 0, false⟩) r = 1 := fun r => rfl
    rw [PeerAddress.work]
    split
    · split
      · rw [hd1]; omega
      · split
        · rw [hd2]; omega
        · omega
    · omega
  · intro prev n v h
    exfalso
    have hD1 : ∀ r k, unmarshalAt detailTy none k r = .err .cannotMarshal := fun r k => rfl
    have hD2 : ∀ r k, unmarshalAt detailTy (some ⟨[], 0, false⟩) k r = .err .cannotMarshal := fun r k => rfl
    unfold PeerAddress.dec at h
    split at h
    · simp at h
    · simp at h
    · dsimp only at h
      split at h
      · rw [hD1] at h; simp at h
      · split at h
        · rw [hD2] at h; simp at h
        · simp at h

theorem quick_ping : Quick ping := by
  intro d
  refine ⟨?_, ?_⟩
  · show (if d.length < 4 then 0 else 4) ≤ 0 + 1 * d.length
    split <;> omega
  · intro prev n v hd hn
    have h := ((frugal_ping d).2 prev n v hd hn).2
    have h : 4 ≤ n := h
    show (if d.length < 4 then 0 else 4) ≤ 0 + 1 * n
    split <;> omega

theorem swift_body : Swift bodyTy := by
  have h3 : Swift accountPrunedTy := by simp [accountPrunedTy, Swift, SwiftFields, quick_wrapAccount]
  simp only [bodyTy, Swift, SwiftFields, quick_wrapTx, h3, and_self]
theorem swift_block : Swift blockTy := by
  have := swift_body
  simp only [blockTy, headerTy, Swift, SwiftFields, quick_interlink, this, and_self]
theorem swift_version : Swift versionTy := by simp [versionTy, Swift, SwiftFields, quick_peerAddress]
theorem swift_inv : Swift invTy := by simp [invTy, Swift, SwiftFields]
theorem swift_getBlocks : Swift getBlocksTy := by simp [getBlocksTy, Swift, SwiftFields]
theorem swift_blockMsg : Swift blockMsgTy := by simp [blockMsgTy, Swift, SwiftFields, swift_block]
theorem swift_headMsg : Swift headMsgTy := by simp [headMsgTy, headerTy, Swift, SwiftFields]
theorem swift_txMsg : Swift txMsgTy := by simp [txMsgTy, Swift, SwiftFields, quick_wrapTx]
theorem swift_addr : Swift addrTy := by simp [addrTy, Swift, SwiftFields, quick_peerAddress]
theorem swift_getAddr : Swift getAddrTy := by simp [getAddrTy, Swift, SwiftFields]
theorem swift_verAck : Swift verAckTy := by simp [verAckTy, Swift, SwiftFields]

/-- **C119** for blocks, as read from a file or a peer: at most 274 steps and 14 for each byte of input. -/
theorem C119_block (prev : blockTy.Val) (data : Bytes) : unmarshalWork blockTy prev data ≤ 274 + 14 * data.length :=
  C119_linear blockTy thrifty_block swift_block prev data

/-- Transactions and accounts take a constant and a step per byte. -/
theorem C119_tx (prev : Option Tx) (data : Bytes) : unmarshalWork (.custom wrapTx) prev data ≤ 13 + data.length := by
  have := C119_linear (.custom wrapTx) frugal_wrapTx quick_wrapTx prev data
  rw [show fixedWork (.custom wrapTx) = 13 from rfl, show workRate (.custom wrapTx) = 1 from rfl] at this
  omega
theorem C119_account (prev : Option Account) (data : Bytes) :
    unmarshalWork (.custom wrapAccount) prev data ≤ 9 + data.length := by
  have := C119_linear (.custom wrapAccount) frugal_wrapAccount quick_wrapAccount prev data
  rw [show fixedWork (.custom wrapAccount) = 9 from rfl, show workRate (.custom wrapAccount) = 1 from rfl] at this
  omega

/-- Merkle paths, which no message contains, as a type of their own. -/
theorem C119_merklePath (prev : MerklePath) (data : Bytes) :
    unmarshalWork (.custom merklePath) prev data ≤ 2 + 2 * data.length :=
  C119_linear (.custom merklePath) frugal_merklePath quick_merklePath prev data

/-- **C119** for messages: whatever the message type and the payload are, `UnmarshalMessage` takes at most 275 steps and 14
for each byte of the payload. -/
theorem C119_message (msgType : UInt64) (buf : Bytes) : messageWork msgType buf ≤ 275 + 14 * buf.length := by
  have hb := C119_linear _ thrifty_blockMsg swift_blockMsg blockMsgTy.zero buf
  have hv := C119_linear _ thrifty_version swift_version versionTy.zero buf
  have hi := C119_linear _ thrifty_inv swift_inv (newInv msgType) buf
  have hg := C119_linear _ thrifty_getBlocks swift_getBlocks getBlocksTy.zero buf
  have hh := C119_linear _ thrifty_headMsg swift_headMsg headMsgTy.zero buf
  have ht := C119_linear _ thrifty_txMsg swift_txMsg txMsgTy.zero buf
  have ha := C119_linear _ thrifty_addr swift_addr addrTy.zero buf
  have hga := C119_linear _ thrifty_getAddr swift_getAddr getAddrTy.zero buf
  have hva := C119_linear _ thrifty_verAck swift_verAck verAckTy.zero buf
  have hp := C119_linear (.custom ping) frugal_ping quick_ping ⟨0, false⟩ buf
  rw [show fixedWork blockMsgTy = 275 from rfl, show workRate blockMsgTy = 14 from rfl] at hb
  rw [show fixedWork versionTy = 17 from rfl, show workRate versionTy = 1 from rfl] at hv
  rw [show fixedWork invTy = 3 from rfl, show workRate invTy = 4 from rfl] at hi
  rw [show fixedWork getBlocksTy = 4 from rfl, show workRate getBlocksTy = 2 from rfl] at hg
  rw [show fixedWork headMsgTy = 11 from rfl, show workRate headMsgTy = 1 from rfl] at hh
  rw [show fixedWork txMsgTy = 14 from rfl, show workRate txMsgTy = 1 from rfl] at ht
  rw [show fixedWork addrTy = 2 from rfl, show workRate addrTy = 12 from rfl] at ha
  rw [show fixedWork getAddrTy = 4 from rfl, show workRate getAddrTy = 0 from rfl] at hga
  rw [show fixedWork verAckTy = 3 from rfl, show workRate verAckTy = 1 from rfl] at hva
  rw [show fixedWork (.custom ping) = 1 from rfl, show workRate (.custom ping) = 1 from rfl] at hp
  rw [messageWork]
  repeat' split
  all_goals omega

/-- Not vacuous: a `getBlocks` payload that announces 65535 locators and has none takes two steps, one with two locators
takes a step for each value and for each of their bytes. -/
example : messageWork 5 [255, 255, 1] = 2 := rfl
example : messageWork 5 ([0, 2] ++ List.replicate 64 7 ++ [0, 1, 1]) = 4 + 2 + 64 := rfl
/-- An interlink of 32 bytes makes 248 rounds without reading a hash, which is why blocks have a large constant. -/
example : Interlink.work (248 :: List.replicate 31 255) = 31 + 31 + 248 := by decide +kernel

end Nimiq.Wire
