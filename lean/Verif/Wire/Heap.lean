import Verif.Wire.HeapModel
import Verif.Beserial.Heap
/-!
# C120 for the protocol types

Buffers that blocks, transactions and messages were decoded from can be reused.
-/
namespace Nimiq.Wire
open Beserial Beserial.Spec

theorem unmarshalAtH_spec {t : HTy} (ht : HGood t) (prev : t.Cell) (n0 : Nat) (h : Heap) (d : Ref) (hv : d.Valid h)
    (hp : ∀ r ∈ t.refs prev, r.Stable h) :
    RelOut t.load t.refs h (unmarshalAtH t prev n0 h d) (unmarshalAt t.erase (t.load h prev) n0 (d.bytes h)) := by
  have hs := decodeH_spec t prev {} h d ht hv hp
  unfold unmarshalAtH unmarshalAt UnmarshalH Unmarshal
  cases hx : decodeH t prev {} h d with
  | mk h' r =>
    rw [hx] at hs
    obtain ⟨h1, h2⟩ := hs
    cases r with
    | ok v r =>
      dsimp only at h1 h2 ⊢
      have h3 : decode noLimit t.erase (t.load h prev) {} (d.bytes h) = .ok (t.load h' v) (r.bytes h) := h2.1
      rw [h3]
      dsimp only
      rw [Ref.bytes_length hv, Ref.bytes_length (h2.2.2.valid hv)]
      exact ⟨h1, rfl, h2.2.1⟩
    | err e r =>
      dsimp only at h1 h2 ⊢
      have h3 : decode noLimit t.erase (t.load h prev) {} (d.bytes h) = .err e (r.bytes h) := h2.1
      rw [h3]
      exact ⟨h1, rfl⟩
    | panic =>
      dsimp only at h1 h2 ⊢
      have h3 : decode noLimit t.erase (t.load h prev) {} (d.bytes h) = .panic := h2
      rw [h3]
      exact ⟨h1, rfl⟩

theorem bytes_uncons {h : Heap} {d : Ref} (hv : d.Valid h) {x : UInt8} {b : Bytes} (hb : d.bytes h = x :: b) :
    b = Ref.bytes h ⟨d.arr, d.off + 1, d.len - 1⟩ ∧ d.len = 1 + b.length ∧ Ref.Valid h ⟨d.arr, d.off + 1, d.len - 1⟩ := by
  have hl := Ref.bytes_length hv
  rw [hb, List.length_cons] at hl
  have h1 : (d.bytes h).drop 1 = b := by rw [hb]; rfl
  refine ⟨?_, by omega, hv.1, ?_⟩
  · rw [← h1]
    unfold Ref.bytes
    rw [List.drop_take, List.drop_drop]
  · have := hv.2
    dsimp only
    omega

theorem valid_sub {h : Heap} {d : Ref} (hv : d.Valid h) {n : Nat} (hn : n ≤ d.len) : Ref.Valid h ⟨d.arr, d.off, n⟩ :=
  ⟨hv.1, by have := hv.2; dsimp only; omega⟩

theorem bytes_sub {h : Heap} {d : Ref} {n : Nat} (hn : n ≤ d.len) : Ref.bytes h ⟨d.arr, d.off, n⟩ = (d.bytes h).take n := by
  unfold Ref.bytes
  rw [List.take_take]
  dsimp only
  rw [Nat.min_eq_left hn]

theorem bitSet_decH (h : Heap) (d : Ref) (hv : d.Valid h) :
    RelOut BitSet.loadH (fun c => [c.2]) h (BitSet.decH h d) (BitSet.dec (d.bytes h)) := by
  unfold BitSet.decH
  cases hb : d.bytes h with
  | nil => exact ⟨List.prefix_refl _, rfl⟩
  | cons l b =>
    obtain ⟨h1, h2, h3⟩ := bytes_uncons hv hb
    rw [BitSet.dec]
    dsimp only
    by_cases hs : b.length < BitSet.size l
    · rw [if_pos hs, if_pos (by omega)]
      exact ⟨List.prefix_append _ _, rfl⟩
    · rw [if_neg hs, if_neg (by omega)]
      have hn : BitSet.size l ≤ (⟨d.arr, d.off + 1, d.len - 1⟩ : Ref).len := by dsimp only; omega
      obtain ⟨ha, hb, hc, _⟩ := allocCopy_spec (valid_sub h3 hn)
      refine ⟨ha, ?_, hc⟩
      dsimp only [BitSet.loadH]
      dsimp only at hb
      rw [hb]
      have := bytes_sub (h := h) hn
      dsimp only at this
      rw [this, ← h1]

theorem bitSet_load_congr {h1 h2 : Heap} {c : UInt8 × Ref} (hr : c.2.bytes h1 = c.2.bytes h2) :
    BitSet.loadH h1 c = BitSet.loadH h2 c := by unfold BitSet.loadH; rw [hr]

theorem bitSetH_lawful : LawfulH bitSetH where
  congr h1 h2 v hr := bitSet_load_congr (hr v.2 (by simp [bitSetH]))
  zero h := by simp [bitSetH, BitSet.loadH, bitSet, Ref.bytes, Ref.nil]
  zero_refs r hr := by
    have : r = Ref.nil := by simpa [bitSetH] using hr
    rw [this]; rfl
  dec p h d hv _ := bitSet_decH h d hv

theorem merklePathH_lawful : LawfulH merklePathH where
  congr h1 h2 v hr := by
    show (⟨BitSet.loadH h1 v.1, v.2⟩ : MerklePath) = ⟨BitSet.loadH h2 v.1, v.2⟩
    rw [bitSet_load_congr (hr v.1.2 (by simp [merklePathH]))]
  zero h := by simp [merklePathH, BitSet.loadH, merklePath, Ref.bytes, Ref.nil]
  zero_refs r hr := by
    have : r = Ref.nil := by simpa [merklePathH] using hr
    rw [this]; rfl
  dec p h d hv _ := by
    have hb := bitSet_decH h d hv
    show RelOut (fun h c => (⟨BitSet.loadH h c.1, c.2⟩ : MerklePath)) (fun c => [c.1.2]) h (merklePathH.dec p h d)
      (MerklePath.dec (d.bytes h))
    unfold MerklePath.dec
    simp only [merklePathH]
    cases hx : BitSet.decH h d with
    | mk h' r =>
      rw [hx] at hb
      obtain ⟨h1, h2⟩ := hb
      dsimp only at h1
      cases r with
      | ok nb =>
        obtain ⟨n, br⟩ := nb
        dsimp only at h2 ⊢
        rw [h2.1, Ref.bytes_prefix h1 hv.stable]
        dsimp only
        have h3 : (BitSet.loadH h' br).len = br.1 := rfl
        rw [h3]
        cases hr : readHashes br.1.toNat ((d.bytes h).drop n) with
        | none => exact ⟨h1, rfl⟩
        | some p =>
          obtain ⟨hs, b⟩ := p
          dsimp only
          rw [Ref.bytes_length hv]
          exact ⟨h1, rfl, h2.2⟩
      | err e =>
        dsimp only at h2 ⊢
        rw [h2]
        exact ⟨h1, rfl⟩
      | panic =>
        dsimp only at h2 ⊢
        rw [h2]
        exact ⟨h1, rfl⟩

theorem interlinkH_lawful : LawfulH interlinkH where
  congr h1 h2 v hr := by
    show (⟨BitSet.loadH h1 v.1, v.2.1, v.2.2.1, v.2.2.2⟩ : Interlink) = ⟨BitSet.loadH h2 v.1, v.2.1, v.2.2.1, v.2.2.2⟩
    rw [bitSet_load_congr (hr v.1.2 (by simp [interlinkH]))]
  zero h := by simp [interlinkH, BitSet.loadH, interlink, Ref.bytes, Ref.nil]
  zero_refs r hr := by
    have : r = Ref.nil := by simpa [interlinkH] using hr
    rw [this]; rfl
  dec p h d hv _ := by
    have hb := bitSet_decH h d hv
    show RelOut (fun h c => (⟨BitSet.loadH h c.1, c.2.1, c.2.2.1, c.2.2.2⟩ : Interlink)) (fun c => [c.1.2]) h
      (interlinkH.dec p h d) (Interlink.dec ⟨BitSet.loadH h p.1, p.2.1, p.2.2.1, p.2.2.2⟩ (d.bytes h))
    unfold Interlink.dec
    simp only [interlinkH]
    cases hx : BitSet.decH h d with
    | mk h' r =>
      rw [hx] at hb
      obtain ⟨h1, h2⟩ := hb
      dsimp only at h1
      cases r with
      | ok nb =>
        obtain ⟨n, br⟩ := nb
        dsimp only at h2 ⊢
        rw [h2.1, Ref.bytes_prefix h1 hv.stable]
        dsimp only
        have h3 : (BitSet.loadH h' br).len = br.1 := rfl
        have h4 : (BitSet.loadH h' br).bits = br.2.bytes h' := rfl
        rw [h3, h4]
        cases hr : interlinkLoop (BitSet.loadH h' br) br.1.toNat 0 .prev 0
            (List.replicate (compressedCount (br.2.bytes h')) (BArr.zero 32)) ((d.bytes h).drop n) with
        | ok res =>
          obtain ⟨hs, comp, b⟩ := res
          dsimp only
          rw [Ref.bytes_length hv]
          exact ⟨h1, rfl, h2.2⟩
        | err e => exact ⟨h1, rfl⟩
        | panic => exact ⟨h1, rfl⟩
      | err e =>
        dsimp only at h2 ⊢
        rw [h2]
        exact ⟨h1, rfl⟩
      | panic =>
        dsimp only at h2 ⊢
        rw [h2]
        exact ⟨h1, rfl⟩

theorem basicTxH_erase : basicTxH.erase = BasicTx.ty := rfl
theorem extendedTxH_erase : extendedTxH.erase = ExtendedTx.ty := rfl
theorem basicTxH_good : HGood basicTxH := by simp [basicTxH, HGood, HGoodFields]
theorem extendedTxH_good : HGood extendedTxH := by simp [extendedTxH, HGood, HGoodFields]

theorem basicTxH_refs (c : basicTxH.Cell) : basicTxH.refs c = [] := by simp [basicTxH, HTy.refs, HFields.refs]

theorem wrapTxH_lawful : LawfulH wrapTxH where
  congr h1 h2 v hr := by
    show Option.map (TxCell.load h1) v = Option.map (TxCell.load h2) v
    cases v with
    | none => rfl
    | some x =>
      have hr : ∀ r ∈ x.refs, r.bytes h1 = r.bytes h2 := hr
      cases x with
      | basic c =>
        simp only [Option.map_some, TxCell.load]
        rw [load_congr basicTxH h1 h2 c basicTxH_good (by rw [basicTxH_refs]; simp)]
      | extended c =>
        simp only [Option.map_some, TxCell.load]
        rw [load_congr extendedTxH h1 h2 c extendedTxH_good hr]
  zero h := rfl
  zero_refs r hr := by simp [wrapTxH] at hr
  dec p h d hv _ := by
    show RelOut (fun h (c : Option TxCell) => c.map (TxCell.load h)) wrapTxH.refs h (wrapTxH.dec p h d) (WrapTx.dec (d.bytes h))
    simp only [wrapTxH]
    cases hb : d.bytes h with
    | nil => exact ⟨List.prefix_refl _, rfl⟩
    | cons ty b =>
      obtain ⟨h1, h2, h3⟩ := bytes_uncons hv hb
      rw [WrapTx.dec]
      dsimp only
      by_cases h0 : ty = 0
      · rw [if_pos h0, if_pos h0]
        have hz := load_zero basicTxH basicTxH_good h
        have hs := unmarshalAtH_spec basicTxH_good basicTxH.zero 1 h _ h3 (by rw [basicTxH_refs]; simp)
        rw [hz.1, ← h1] at hs
        change RelOut _ _ _ _ (unmarshalAt BasicTx.ty BasicTx.ty.zero 1 b) at hs
        cases hx : unmarshalAtH basicTxH basicTxH.zero 1 h ⟨d.arr, d.off + 1, d.len - 1⟩ with
        | mk h' r =>
          rw [hx] at hs
          obtain ⟨ha, hs⟩ := hs
          cases r with
          | ok nv =>
            obtain ⟨n, v⟩ := nv
            dsimp only at hs
            rw [hs.1]
            exact ⟨ha, rfl, Own.nil _ _⟩
          | err e =>
            dsimp only at hs
            rw [hs]
            exact ⟨ha, rfl⟩
          | panic =>
            dsimp only at hs
            rw [hs]
            exact ⟨ha, rfl⟩
      · rw [if_neg h0, if_neg h0]
        by_cases h01 : ty = 1
        · rw [if_pos h01, if_pos h01]
          have hz := load_zero extendedTxH extendedTxH_good h
          have hs := unmarshalAtH_spec extendedTxH_good extendedTxH.zero 1 h _ h3 fun r hr => .inl (hz.2 r hr)
          rw [hz.1, ← h1] at hs
          change RelOut _ _ _ _ (unmarshalAt ExtendedTx.ty ExtendedTx.ty.zero 1 b) at hs
          cases hx : unmarshalAtH extendedTxH extendedTxH.zero 1 h ⟨d.arr, d.off + 1, d.len - 1⟩ with
          | mk h' r =>
            rw [hx] at hs
            obtain ⟨ha, hs⟩ := hs
            cases r with
            | ok nv =>
              obtain ⟨n, v⟩ := nv
              dsimp only at hs
              rw [hs.1]
              exact ⟨ha, rfl, hs.2⟩
            | err e =>
              dsimp only at hs
              rw [hs]
              exact ⟨ha, rfl⟩
            | panic =>
              dsimp only at hs
              rw [hs]
              exact ⟨ha, rfl⟩
        · rw [if_neg h01, if_neg h01]
          exact ⟨List.prefix_refl _, rfl⟩

theorem netAddressH_lawful : LawfulH netAddressH where
  congr h1 h2 v hr := by
    show (⟨v.1, v.2.bytes h1⟩ : NetAddress) = ⟨v.1, v.2.bytes h2⟩
    rw [hr v.2 (by simp [netAddressH])]
  zero h := by simp [netAddressH, netAddress, Ref.bytes, Ref.nil]
  zero_refs r hr := by
    have : r = Ref.nil := by simpa [netAddressH] using hr
    rw [this]; rfl
  dec p h d hv _ := by
    show RelOut (fun h (c : UInt8 × Ref) => (⟨c.1, c.2.bytes h⟩ : NetAddress)) (fun c => [c.2]) h (netAddressH.dec p h d)
      (NetAddress.dec ⟨p.1, p.2.bytes h⟩ (d.bytes h))
    have hs := decodeH_spec (.num .u8) (0 : UInt8) {} h d trivial hv (by simp [HTy.refs])
    unfold NetAddress.dec
    simp only [netAddressH, UnmarshalH]
    have hU : Unmarshal (.num .u8) (0 : UInt8) (d.bytes h) =
      decode (fun _ => true) (HTy.num .u8).erase ((HTy.num .u8).load h (0 : UInt8)) {} (d.bytes h) := rfl
    rw [hU]
    cases hx : decodeH (.num .u8) (0 : UInt8) {} h d with
    | mk h' r =>
      rw [hx] at hs
      obtain ⟨h1, hs⟩ := hs
      cases r with
      | ok t b =>
        dsimp only at h1 hs ⊢
        rw [hs.1]
        have hld : (HTy.num .u8).load h' t = t := by rw [HTy.load]
        rw [hld]
        have hbv := hs.2.2.valid hv
        have hbl := Ref.bytes_length hbv
        have key : ∀ k, k ≤ b.len → RelOut (fun h (c : UInt8 × Ref) => (⟨c.1, c.2.bytes h⟩ : NetAddress)) (fun c => [c.2]) h
            ((allocCopy h' ⟨b.arr, b.off, k⟩).1, .ok (d.len - b.len + k, (p.1, (allocCopy h' ⟨b.arr, b.off, k⟩).2)))
            (.ok (d.len - b.len + k, ⟨p.1, (b.bytes h).take k⟩)) := by
          intro k hk
          obtain ⟨ha, hb, hc, _⟩ := allocCopy_spec (valid_sub (hbv.mono h1) hk)
          refine ⟨h1.trans ha, ?_, hc.mono h1.length_le (List.prefix_refl _)⟩
          dsimp only at hb ⊢
          rw [hb, Ref.bytes_prefix h1 (valid_sub hbv hk).stable]
          rw [bytes_sub hk]
        simp only [hbl, Ref.bytes_length hv]
        by_cases h0 : t = 0
        · rw [if_pos h0, if_pos h0]
          by_cases h4 : b.len < 4
          · rw [if_pos h4, if_pos h4]
            exact ⟨h1.trans (List.prefix_append _ _), rfl⟩
          · rw [if_neg h4, if_neg h4]
            exact key 4 (by omega)
        · rw [if_neg h0, if_neg h0]
          by_cases h01 : t = 1
          · rw [if_pos h01, if_pos h01]
            by_cases h16 : b.len < 16
            · rw [if_pos h16, if_pos h16]
              exact ⟨h1.trans (List.prefix_append _ _), rfl⟩
            · rw [if_neg h16, if_neg h16]
              exact key 16 (by omega)
          · rw [if_neg h01, if_neg h01]
            exact ⟨h1, rfl⟩
      | err e r =>
        dsimp only at h1 hs ⊢
        rw [hs.1]
        exact ⟨h1, rfl⟩
      | panic =>
        dsimp only at h1 hs ⊢
        rw [hs]
        exact ⟨h1, rfl⟩

theorem peerAddressHeaderH_erase : peerAddressHeaderH.erase = PeerAddressHeader.ty := rfl
theorem peerAddressHeaderH_good : HGood peerAddressHeaderH := by
  simp [peerAddressHeaderH, HGood, HGoodFields, netAddressH_lawful]

theorem unsupportedH_err (α : Type) (z p : α) (n : Nat) (h : Heap) (d : Ref) :
    unmarshalAtH (.unsupported α z) p n h d = (h, .err .cannotMarshal) := by
  simp only [unmarshalAtH, UnmarshalH, decodeH]
theorem unsupported_err (α : Type) (z p : α) (n : Nat) (d : Bytes) :
    unmarshalAt (.unsupported α z) p n d = .err .cannotMarshal := by
  simp only [unmarshalAt, Unmarshal, decode]

theorem peerAddressH_lawful : LawfulH peerAddressH where
  congr h1 h2 v hr := by
    show (⟨PeerAddressHeader.ofVal (peerAddressHeaderH.load h1 v.1), v.2⟩ : PeerAddress) =
      ⟨PeerAddressHeader.ofVal (peerAddressHeaderH.load h2 v.1), v.2⟩
    rw [load_congr peerAddressHeaderH h1 h2 v.1 peerAddressHeaderH_good hr]
  zero h := by
    show (⟨PeerAddressHeader.ofVal (peerAddressHeaderH.load h peerAddressHeaderH.zero), none⟩ : PeerAddress) = _
    rw [(load_zero peerAddressHeaderH peerAddressHeaderH_good h).1]
    rfl
  zero_refs r hr := (load_zero peerAddressHeaderH peerAddressHeaderH_good []).2 r hr
  dec p h d hv hp := by
    show RelOut (fun h (c : peerAddressHeaderH.Cell × Option PeerAddressSrv) =>
        (⟨PeerAddressHeader.ofVal (peerAddressHeaderH.load h c.1), c.2⟩ : PeerAddress)) (fun c => peerAddressHeaderH.refs c.1)
      h (peerAddressH.dec p h d) (PeerAddress.dec ⟨PeerAddressHeader.ofVal (peerAddressHeaderH.load h p.1), p.2⟩ (d.bytes h))
    have hs := decodeH_spec peerAddressHeaderH p.1 {} h d peerAddressHeaderH_good hv hp
    unfold PeerAddress.dec
    simp only [peerAddressH, UnmarshalH]
    have hU : Unmarshal PeerAddressHeader.ty (PeerAddressHeader.toVal (PeerAddressHeader.ofVal (peerAddressHeaderH.load h p.1)))
        (d.bytes h) =
      decode (fun _ => true) peerAddressHeaderH.erase (peerAddressHeaderH.load h p.1) {} (d.bytes h) := rfl
    rw [hU]
    cases hx : decodeH peerAddressHeaderH p.1 {} h d with
    | mk h' r =>
      rw [hx] at hs
      obtain ⟨h1, hs⟩ := hs
      cases r with
      | ok v b =>
        dsimp only at h1 hs ⊢
        rw [hs.1]
        simp only [detailH, detailTy, unsupportedH_err, unsupported_err]
        split
        · exact ⟨h1, rfl⟩
        · split
          · exact ⟨h1, rfl⟩
          · exact ⟨h1, rfl⟩
      | err e r =>
        dsimp only at h1 hs ⊢
        rw [hs.1]
        exact ⟨h1, rfl⟩
      | panic =>
        dsimp only at h1 hs ⊢
        rw [hs]
        exact ⟨h1, rfl⟩

/-- The types with memory are those of `Wire/Model.lean`. -/
theorem bodyH_erase : bodyH.erase = bodyTy := rfl
theorem blockH_erase : blockH.erase = blockTy := rfl
theorem versionH_erase : versionH.erase = versionTy := rfl
theorem invH_erase : invH.erase = invTy := rfl
theorem getBlocksH_erase : getBlocksH.erase = getBlocksTy := rfl
theorem blockMsgH_erase : blockMsgH.erase = blockMsgTy := rfl
theorem headMsgH_erase : headMsgH.erase = headMsgTy := rfl
theorem txMsgH_erase : txMsgH.erase = txMsgTy := rfl
theorem addrH_erase : addrH.erase = addrTy := rfl
theorem getAddrH_erase : getAddrH.erase = getAddrTy := rfl
theorem verAckH_erase : verAckH.erase = verAckTy := rfl
theorem signatureProofH_erase : signatureProofH.erase = SignatureProof.ty := rfl

theorem wrapAccountH_lawful : LawfulH wrapAccountH := plain_lawfulH _ _
theorem headerH_good : HGood headerH := by simp [headerH, HGood, HGoodFields]
theorem bodyH_good : HGood bodyH := by
  simp [bodyH, accountPrunedH, HGood, HGoodFields, wrapTxH_lawful, wrapAccountH_lawful]
theorem blockH_good : HGood blockH := by
  refine ⟨headerH_good, interlinkH_lawful, ⟨bodyH_good, rfl⟩, trivial⟩
theorem versionH_good : HGood versionH := by simp [versionH, HGood, HGoodFields, peerAddressH_lawful]
theorem invH_good : HGood invH := by simp [invH, HGood, HGoodFields]
theorem getBlocksH_good : HGood getBlocksH := by simp [getBlocksH, HGood, HGoodFields]
theorem blockMsgH_good : HGood blockMsgH := ⟨blockH_good, trivial⟩
theorem headMsgH_good : HGood headMsgH := ⟨headerH_good, trivial⟩
theorem txMsgH_good : HGood txMsgH := ⟨wrapTxH_lawful, trivial⟩
theorem addrH_good : HGood addrH := by simp [addrH, HGood, HGoodFields, peerAddressH_lawful]
theorem getAddrH_good : HGood getAddrH := by simp [getAddrH, HGood, HGoodFields]
theorem pingH_good : HGood pingH := plain_lawfulH _ _
theorem verAckH_good : HGood verAckH := by simp [verAckH, HGood, HGoodFields]
theorem signatureProofH_good : HGood signatureProofH := by
  simp [signatureProofH, HGood, HGoodFields, merklePathH_lawful]

theorem MsgCell.load_congr (m : MsgCell) (h1 h2 : Heap) (hr : ∀ r ∈ m.refs, r.bytes h1 = r.bytes h2) :
    m.load h1 = m.load h2 := by
  cases m with
  | version c => exact congrArg Msg.version (Beserial.load_congr _ _ _ _ versionH_good hr)
  | inv c => exact congrArg Msg.inv (Beserial.load_congr _ _ _ _ invH_good hr)
  | getBlocks c => exact congrArg Msg.getBlocks (Beserial.load_congr _ _ _ _ getBlocksH_good hr)
  | block c => exact congrArg Msg.block (Beserial.load_congr _ _ _ _ blockMsgH_good hr)
  | header c => exact congrArg Msg.header (Beserial.load_congr _ _ _ _ headMsgH_good hr)
  | tx c => exact congrArg Msg.tx (Beserial.load_congr _ _ _ _ txMsgH_good hr)
  | addr c => exact congrArg Msg.addr (Beserial.load_congr _ _ _ _ addrH_good hr)
  | getAddr c => exact congrArg Msg.getAddr (Beserial.load_congr _ _ _ _ getAddrH_good hr)
  | ping c => exact congrArg Msg.ping (Beserial.load_congr _ _ _ _ pingH_good hr)
  | head c => exact congrArg Msg.head (Beserial.load_congr _ _ _ _ headMsgH_good hr)
  | verAck c => exact congrArg Msg.verAck (Beserial.load_congr _ _ _ _ verAckH_good hr)

/-- `UnmarshalMessage` with memory against the one without. -/
def RelMsg (h : Heap) (x : Heap × Out MsgCell) (y : Out Msg) : Prop :=
  h <+: x.1 ∧ match x.2 with
    | .ok m => y = .ok (m.load x.1) ∧ Own h.length x.1 m.refs
    | .err e => y = .err e
    | .panic => y = .panic

theorem RelMsg.ite {c : Prop} [Decidable c] {h : Heap} {a b : Heap × Out MsgCell} {a' b' : Out Msg} (h1 : RelMsg h a a')
    (h2 : RelMsg h b b') : RelMsg h (if c then a else b) (if c then a' else b') := by
  by_cases hc : c
  · rw [if_pos hc, if_pos hc]; exact h1
  · rw [if_neg hc, if_neg hc]; exact h2

theorem finishMessageH_spec {t : HTy} (ht : HGood t) (prev : t.Cell) (prev' : t.erase.Val) (mk : t.Cell → MsgCell)
    (mk' : t.erase.Val → Msg) (h : Heap) (d : Ref) (hv : d.Valid h) (hp : ∀ r ∈ t.refs prev, r.len = 0)
    (hl : t.load h prev = prev') (hmk : ∀ h v, (mk v).load h = mk' (t.load h v)) (hr : ∀ v, (mk v).refs = t.refs v) :
    RelMsg h (finishMessageH t prev mk h d) (finishMessage t.erase prev' mk' (d.bytes h)) := by
  subst hl
  have hs := decodeH_spec t prev {} h d ht hv fun r hr => .inl (hp r hr)
  unfold finishMessageH finishMessage UnmarshalH Unmarshal
  cases hx : decodeH t prev {} h d with
  | mk h' r =>
    rw [hx] at hs
    obtain ⟨h1, h2⟩ := hs
    cases r with
    | ok v r =>
      dsimp only at h1 h2 ⊢
      have h3 : decode noLimit t.erase (t.load h prev) {} (d.bytes h) = .ok (t.load h' v) (r.bytes h) := h2.1
      rw [h3]
      dsimp only
      rw [Ref.bytes_length hv, Ref.bytes_length (h2.2.2.valid hv)]
      by_cases hn : d.len - r.len ≠ d.len
      · rw [if_pos hn, if_pos hn]; exact ⟨h1, rfl⟩
      · rw [if_neg hn, if_neg hn]
        exact ⟨h1, congrArg Out.ok (hmk h' v).symm, by rw [hr]; exact h2.2.1⟩
    | err e r =>
      dsimp only at h1 h2 ⊢
      have h3 : decode noLimit t.erase (t.load h prev) {} (d.bytes h) = .err e (r.bytes h) := h2.1
      rw [h3]
      exact ⟨h1, rfl⟩
    | panic =>
      dsimp only at h1 h2 ⊢
      have h3 : decode noLimit t.erase (t.load h prev) {} (d.bytes h) = .panic := h2
      rw [h3]
      exact ⟨h1, rfl⟩

theorem finishZero {t : HTy} (ht : HGood t) (mk : t.Cell → MsgCell) (mk' : t.erase.Val → Msg) (h : Heap) (d : Ref)
    (hv : d.Valid h) (hmk : ∀ h v, (mk v).load h = mk' (t.load h v)) (hr : ∀ v, (mk v).refs = t.refs v) :
    RelMsg h (finishMessageH t t.zero mk h d) (finishMessage t.erase t.erase.zero mk' (d.bytes h)) :=
  finishMessageH_spec ht t.zero _ mk mk' h d hv (load_zero t ht h).2 (load_zero t ht h).1 hmk hr

theorem UnmarshalMessageH_spec (ty : UInt64) (h : Heap) (d : Ref) (hv : d.Valid h) :
    RelMsg h (UnmarshalMessageH ty h d) (UnmarshalMessage ty (d.bytes h)) := by
  have hinv : ∀ k, RelMsg h (finishMessageH invH (newInvH k) .inv h d) (finishMessage invTy (newInv k) .inv (d.bytes h)) := by
    intro k
    refine finishMessageH_spec invH_good (newInvH k) _ .inv .inv h d hv ?_ ?_ (fun _ _ => rfl) (fun _ => rfl)
    · simp [invH, newInvH, HTy.refs, HFields.refs]
    · simp [invH, newInvH, newInv, HTy.load, HFields.load]
  have hping : ∀ k : Ping, RelMsg h (finishMessageH pingH k .ping h d) (finishMessage (.custom ping) k .ping (d.bytes h)) := by
    intro k
    refine finishMessageH_spec pingH_good k _ .ping .ping h d hv ?_ ?_ (fun _ _ => rfl) (fun _ => rfl)
    · intro r hr
      simp [pingH, HTy.refs, HCodec.plain] at hr
    · simp only [pingH, HTy.load, HCodec.plain]
      rfl
  have hpanic : RelMsg h (h, .panic) .panic := ⟨List.prefix_refl _, rfl⟩
  unfold UnmarshalMessageH UnmarshalMessage
  refine RelMsg.ite (finishZero versionH_good _ _ h d hv (fun _ _ => rfl) (fun _ => rfl)) ?_
  refine RelMsg.ite (hinv 1) ?_
  refine RelMsg.ite (hinv 2) ?_
  refine RelMsg.ite (hinv 3) ?_
  refine RelMsg.ite (hinv 4) ?_
  refine RelMsg.ite (finishZero getBlocksH_good _ _ h d hv (fun _ _ => rfl) (fun _ => rfl)) ?_
  refine RelMsg.ite (finishZero blockMsgH_good _ _ h d hv (fun _ _ => rfl) (fun _ => rfl)) ?_
  refine RelMsg.ite (finishZero headMsgH_good _ _ h d hv (fun _ _ => rfl) (fun _ => rfl)) ?_
  refine RelMsg.ite (finishZero txMsgH_good _ _ h d hv (fun _ _ => rfl) (fun _ => rfl)) ?_
  refine RelMsg.ite (hpanic) ?_
  refine RelMsg.ite (finishZero addrH_good _ _ h d hv (fun _ _ => rfl) (fun _ => rfl)) ?_
  refine RelMsg.ite (finishZero getAddrH_good _ _ h d hv (fun _ _ => rfl) (fun _ => rfl)) ?_
  refine RelMsg.ite (hping _) ?_
  refine RelMsg.ite (hping _) ?_
  refine RelMsg.ite (hpanic) ?_
  refine RelMsg.ite (hpanic) ?_
  refine RelMsg.ite (finishZero headMsgH_good _ _ h d hv (fun _ _ => rfl) (fun _ => rfl)) ?_
  refine RelMsg.ite (finishZero verAckH_good _ _ h d hv (fun _ _ => rfl) (fun _ => rfl)) ?_
  exact ⟨List.prefix_refl _, rfl⟩

/-- **C120.** A message received in a buffer: `UnmarshalMessage` writes to no memory that existed; the message it returns
stays what it was, whatever happens to the buffer (and to all other memory from before the call) afterwards; and it is the
message of the model without memory, of which the other theorems speak. -/
theorem C120_message (ty : UInt64) (h : Heap) (buf : Ref) (hbuf : buf.Valid h) :
    h <+: (UnmarshalMessageH ty h buf).1 ∧
    (∀ m, (UnmarshalMessageH ty h buf).2 = .ok m → ∀ later : Heap,
      (∀ i, h.length ≤ i → later[i]? = (UnmarshalMessageH ty h buf).1[i]?) →
      UnmarshalMessage ty (buf.bytes h) = .ok (m.load later)) ∧
    (∀ m, (UnmarshalMessageH ty h buf).2 = .ok m → (m.refs.map (·.arr)).Nodup ∧
      ∀ r ∈ m.refs, h.length ≤ r.arr ∧ r.Valid (UnmarshalMessageH ty h buf).1) ∧
    (∀ e, (UnmarshalMessageH ty h buf).2 = .err e → UnmarshalMessage ty (buf.bytes h) = .err e) ∧
    ((UnmarshalMessageH ty h buf).2 = .panic → UnmarshalMessage ty (buf.bytes h) = .panic) := by
  have hs := UnmarshalMessageH_spec ty h buf hbuf
  cases hx : UnmarshalMessageH ty h buf with
  | mk h' r =>
    rw [hx] at hs
    obtain ⟨h1, hs⟩ := hs
    dsimp only at h1 hs ⊢
    refine ⟨h1, ?_, ?_, ?_, ?_⟩
    · rintro m rfl later hl
      dsimp only at hs
      rw [hs.1]
      congr 1
      apply MsgCell.load_congr
      intro r hr
      unfold Ref.bytes
      rw [hl r.arr (hs.2.1 r hr).1]
    · rintro m rfl
      exact ⟨hs.2.2, hs.2.1⟩
    · rintro e rfl; exact hs
    · rintro rfl; exact hs

/-- **C120** for blocks, as read from an archive: the buffer can be reused for the next block. -/
theorem C120_block (prev b : blockH.Cell) (h h' later : Heap) (buf rest : Ref) (hbuf : buf.Valid h)
    (hprev : ∀ r ∈ blockH.refs prev, r.Valid h ∨ r.len = 0) (hok : UnmarshalH blockH prev h buf = (h', .ok b rest))
    (hl : ∀ i, h.length ≤ i → later[i]? = h'[i]?) :
    Unmarshal blockTy (blockH.load h prev) (buf.bytes h) = .ok (blockH.load later b) (rest.bytes h) ∧
      (∀ r ∈ blockH.refs b, h.length ≤ r.arr ∧ r.Valid h') ∧ ((blockH.refs b).map (·.arr)).Nodup :=
  ⟨(C120_input_can_be_reused blockH blockH_good prev b h h' later buf rest hbuf hprev hok hl).2,
    (C120_slices_are_new blockH blockH_good prev b h h' buf rest hbuf hprev hok).1,
    (C120_slices_are_new blockH blockH_good prev b h h' buf rest hbuf hprev hok).2.1⟩

/-- A block body of the shape `Data` and `Proof` have in an extended transaction, decoded from the middle of a buffer: the
two slices are to the new arrays 1 and 2. -/
example : UnmarshalH (.struct (.cons tagU16 .byteSlice (.cons none (.num .u8) (.cons tagU16 .byteSlice .nil))))
    (Ref.nil, (0 : UInt8), Ref.nil, ()) [[0xee, 0, 2, 7, 8, 5, 0, 1, 9, 0xff]] ⟨0, 1, 9⟩ =
    ([[0xee, 0, 2, 7, 8, 5, 0, 1, 9, 0xff], [7, 8], [9]], .ok (⟨1, 0, 2⟩, (5 : UInt8), ⟨2, 0, 1⟩, ()) ⟨0, 9, 1⟩) := by
  rfl

/-- A net address, then the buffer is filled with zeros: the address is still 1.2.3.4. -/
example : let (h, r) := UnmarshalH (.custom netAddressH) netAddressH.zero [[0, 1, 2, 3, 4]] ⟨0, 0, 5⟩
    h = [[0, 1, 2, 3, 4], [1, 2, 3, 4]] ∧ r = .ok (0, ⟨1, 0, 4⟩) ⟨0, 5, 0⟩ ∧
    netAddressH.load [[0, 0, 0, 0, 0], [1, 2, 3, 4]] (0, ⟨1, 0, 4⟩) = ⟨0, [1, 2, 3, 4]⟩ := by
  exact ⟨rfl, rfl, rfl⟩

/-- A decoder that kept a part of its input (`bs.Bits = b[1:1+size]`) would not be lawful. -/
example : ¬ LawfulH { bitSetH with dec := fun _ h d => (h, .ok (2, (8, ⟨d.arr, d.off + 1, 1⟩))) } := by
  intro hl
  have h1 := hl.dec (0, Ref.nil) [[8, 0xff]] ⟨0, 0, 2⟩ ⟨by decide, by decide⟩ (by
    intro r hr
    have : r = Ref.nil := by simpa [bitSetH] using hr
    rw [this]; exact .inl rfl)
  have h2 := h1.2.2.1 ⟨0, 1, 1⟩ (by simp [bitSetH])
  exact absurd h2.1 (by decide)

/-- A transaction message with an extended transaction: `Data` is aa bb, `Proof` is cc, both in new arrays, and stay so after
the buffer is overwritten. -/
example :
    let buf : Bytes := [1, 0, 2, 0xaa, 0xbb] ++ List.replicate 64 0 ++ [0, 1, 0xcc]
    let out := UnmarshalMessageH 8 [buf] ⟨0, 0, 72⟩
    out.1 = [buf, [0xaa, 0xbb], [0xcc]] ∧
    (match out.2 with
    | .ok m => m.refs = [⟨1, 0, 2⟩, ⟨2, 0, 1⟩] ∧
      (match m.load [List.replicate 72 0xff, [0xaa, 0xbb], [0xcc]] with
      | .tx v => (match v.1 with
        | some (.extended t) => t.data = [0xaa, 0xbb] ∧ t.proof = [0xcc]
        | _ => False)
      | _ => False)
    | _ => False) := by
  exact ⟨rfl, rfl, rfl, rfl⟩

end Nimiq.Wire
