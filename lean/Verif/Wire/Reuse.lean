import Verif.Wire.Messages
import Verif.Wire.Misc
/-!
# Decoding into a variable that already holds a value (C98)

`Unmarshal(data, v)` writes into `*v`, which need not be a fresh variable.
-/
namespace Nimiq.Beserial.Spec
open Beserial

mutual
/-- No custom decoder looks at what its receiver held before, and no pointer leads straight to a type with a custom decoder
(such a pointer is followed, not replaced: decode.go:63-72). -/
def Fresh : Ty → Prop
  | .custom c => ∀ p p' d, c.dec p d = c.dec p' d
  | .ptr t => isCustom t = false
  | .arr _ t => Fresh t
  | .struct fs => FreshFields fs
  | _ => True
def FreshFields : Fields → Prop
  | .nil => True
  | .cons _ t fs => Fresh t ∧ FreshFields fs
end

end Nimiq.Beserial.Spec

namespace Nimiq.Beserial
open Spec

theorem decLoop_congr {α} {f : α → Bytes → Res α} (hf : ∀ p p' d, f p d = f p' d) :
    ∀ (l l' : List α) (d : Bytes), l.length = l'.length →
      (decLoop f l d).map (·.val) = (decLoop f l' d).map (·.val)
  | [], [], _, _ => rfl
  | [], _ :: _, _, h => by simp at h
  | _ :: _, [], _, h => by simp at h
  | p :: l, p' :: l', d, h => by
    have ih := fun d => decLoop_congr hf l l' d (by simpa using h)
    simp only [decLoop]
    rw [hf p p' d]
    cases f p' d with
    | ok v d1 =>
      simp only
      have := ih d1
      cases h1 : decLoop f l d1 <;> cases h2 : decLoop f l' d1 <;> simp_all [Res.map]
    | err e d1 => rfl
    | panic => rfl

mutual
theorem decode_fresh (lim : Nat → Bool) : ∀ (t : Ty) (p p' : t.Val) (ts : Tags) (d : Bytes), Fresh t →
    decode lim t p ts d = decode lim t p' ts d
  | .custom c, p, p', ts, d, h => by simp only [decode, runCustom, h p p' d]
  | .ptr t, p, p', ts, d, h => by
    have : t.customDec = none := by cases t <;> simp_all [Fresh, isCustom, Ty.customDec]
    simp only [decode, this]
  | .byteArr n, p, p', ts, d, _ => by simp only [decode]
  | .arr n t, p, p', ts, d, h => by
    have ht := decode_fresh lim t
    have := decLoop_congr (f := fun p d => decode lim t p {} d) (fun p p' d => ht p p' {} d h) p.val p'.val d
      (by rw [p.property, p'.property])
    simp only [decode]
    cases h1 : decLoop (fun p d => decode lim t p {} d) p.val d <;>
      cases h2 : decLoop (fun p d => decode lim t p {} d) p'.val d <;> simp_all [Res.map]
  | .str, _, _, _, _, _ => by simp only [decode]
  | .byteSlice, _, _, _, _, _ => by simp only [decode]
  | .slice _, _, _, _, _, _ => by simp only [decode]
  | .struct fs, p, p', _, d, h => by
    simp only [decode]; exact decodeFields_fresh lim fs p p' d h
  | .bool, _, _, _, _, _ => by simp only [decode]
  | .num _, _, _, _, _, _ => by simp only [decode]
  | .unsupported _ _, _, _, _, _, _ => by simp only [decode]
theorem decodeFields_fresh (lim : Nat → Bool) : ∀ (fs : Fields) (p p' : fs.Val) (d : Bytes), FreshFields fs →
    decodeFields lim fs p d = decodeFields lim fs p' d
  | .nil, _, _, _, _ => rfl
  | .cons tag t fs, p, p', d, h => by
    have ih := decodeFields_fresh lim fs p.2 p'.2
    simp only [decodeFields]
    cases fieldTags tag with
    | none => rfl
    | some ts =>
      simp only
      rw [decode_fresh lim t p.1 p'.1 ts d h.1]
      cases decode lim t p'.1 ts d with
      | ok v d1 => simp only; rw [ih d1 h.2]
      | err e d1 => rfl
      | panic => rfl
end

end Nimiq.Beserial

namespace Nimiq.Wire
open Beserial Beserial.Spec

/-- C98, generic part. For a type all of whose custom decoders ignore their receiver, every outcome of Unmarshal (value,
unread bytes, error, panic) is the same whatever the variable held before; there is no condition on the input. -/
theorem C98_fresh_partial (t : Ty) (h : Fresh t) (old : t.Val) (data : Bytes) :
    Unmarshal t old data = Unmarshal t t.zero data := by
  unfold Unmarshal; exact decode_fresh _ t _ _ _ _ h

example (old : headerTy.Val) (data : Bytes) : Unmarshal headerTy old data = Unmarshal headerTy headerTy.zero data :=
  C98_fresh_partial headerTy (by simp [headerTy, Fresh, FreshFields]) old data

theorem netAddress_reuse (p : NetAddress) (d : Bytes) : runCustom netAddress.dec p d =
    (runCustom netAddress.dec netAddress.zero d).map fun na => (⟨p.type, na.ip⟩ : NetAddress) := by
  simp only [runCustom, netAddress, NetAddress.dec]
  cases Unmarshal (.num .u8) (0 : UInt8) d with
  | err e r => rfl
  | panic => rfl
  | ok t b =>
    simp only
    by_cases h0 : t = 0
    · simp only [h0, if_true]
      by_cases h4 : b.length < 4
      · simp only [h4, if_true, Res.map]
      · simp only [h4, if_false]
        by_cases hn : d.length - b.length + 4 > d.length
        · simp only [hn, if_true, Res.map]
        · simp only [hn, if_false, Res.map]
    · simp only [h0, if_false]
      by_cases h1 : t = 1
      · simp only [h1, if_true]
        by_cases h4 : b.length < 16
        · simp only [h4, if_true, Res.map]
        · simp only [h4, if_false]
          by_cases hn : d.length - b.length + 16 > d.length
          · simp only [hn, if_true, Res.map]
          · simp only [hn, if_false, Res.map]
      · simp only [h1, if_false, Res.map]

/-- What a `PeerAddressHeader` decodes to over an old value: exactly `NetAddress.Type` survives. -/
theorem C98_header_exact (old : PeerAddressHeader) (data : Bytes) :
    Unmarshal PeerAddressHeader.ty old.toVal data =
      (Unmarshal PeerAddressHeader.ty PeerAddressHeader.ty.zero data).map fun v =>
        { PeerAddressHeader.ofVal v with
          netAddress := ⟨old.netAddress.type, (PeerAddressHeader.ofVal v).netAddress.ip⟩ }.toVal := by
  simp only [Unmarshal, PeerAddressHeader.ty, PeerAddressHeader.toVal, decode, decodeFields, fieldTags_none,
    Fields.zero, Ty.zero, NumKind.size]
  cases pop 1 data with
  | none => rfl
  | some x =>
  simp only
  cases pop 4 x.2 with
  | none => rfl
  | some x =>
  simp only
  cases pop 8 x.2 with
  | none => rfl
  | some x =>
  simp only
  rw [netAddress_reuse]
  cases runCustom netAddress.dec netAddress.zero x.2 with
  | err e r => rfl
  | panic => rfl
  | ok na r =>
  simp only [Res.map]
  cases pop 32 r with
  | none => rfl
  | some x =>
  simp only
  cases pop 1 x.2 with
  | none => rfl
  | some x =>
  simp only
  cases pop 64 x.2 with
  | none => rfl
  | some x => rfl

/-- Peer addresses: decoding fails in the same way over every old value (C48: it never succeeds). -/
theorem peerAddress_fresh : Fresh (.custom peerAddress) := by
  intro p p' d
  show PeerAddress.dec p d = PeerAddress.dec p' d
  simp only [PeerAddress.dec]
  rw [C98_header_exact p.header, C98_header_exact p'.header]
  cases Unmarshal PeerAddressHeader.ty PeerAddressHeader.ty.zero d with
  | err e r => rfl
  | panic => rfl
  | ok v r =>
    simp only [Res.map, PeerAddressHeader.toVal, PeerAddressHeader.ofVal, unmarshalAt, Unmarshal, detailTy, decode]

theorem interlink_reuse (p : Interlink) (d : Bytes) : runCustom interlink.dec p d =
    (runCustom interlink.dec interlink.zero d).map fun il => ({ il with prevHash := p.prevHash } : Interlink) := by
  simp only [runCustom, interlink, Interlink.dec]
  cases BitSet.dec d with
  | err e => rfl
  | panic => rfl
  | ok q =>
    simp only
    cases interlinkLoop q.2 q.2.len.toNat 0 .prev 0 (List.replicate (compressedCount q.2.bits) (BArr.zero 32)) (d.drop q.1) with
    | err e => rfl
    | panic => rfl
    | ok r =>
      simp only
      by_cases hn : d.length - r.2.2.length > d.length
      · simp only [hn, if_true, Res.map]
      · simp only [hn, if_false, Res.map]

/-- What a `Block` decodes to over an old value: exactly `Interlink.PrevHash` survives. -/
theorem C98_block_exact (old : blockTy.Val) (data : Bytes) :
    Unmarshal blockTy old data = (Unmarshal blockTy blockTy.zero data).map fun v =>
      (v.1, ({ (v.2.1 : Interlink) with prevHash := Interlink.prevHash old.2.1 } : Interlink), v.2.2) := by
  have hh : ∀ p d, decode noLimit headerTy p {} d = decode noLimit headerTy headerTy.zero {} d :=
    fun p d => decode_fresh _ _ _ _ _ _ (by simp [headerTy, Fresh, FreshFields])
  have hb : ∀ p ts d, decode noLimit (.ptr bodyTy) p ts d = decode noLimit (.ptr bodyTy) none ts d :=
    fun p ts d => decode_fresh _ _ _ _ _ _ (by simp [bodyTy, Fresh, isCustom])
  have hi : ∀ (p : Interlink) d, decode noLimit (.custom interlink) p {} d =
      (decode noLimit (.custom interlink) interlink.zero {} d).map
        fun il => ({ (il : Interlink) with prevHash := p.prevHash } : Interlink) := by
    intro p d; simp only [decode]; exact interlink_reuse p d
  have e : ∀ p d, Unmarshal blockTy p d = decodeFields noLimit (.cons none headerTy (.cons none (.custom interlink)
    (.cons tagOptional (.ptr bodyTy) .nil))) p d := fun p d => by simp only [Unmarshal, blockTy, decode]
  rw [e, e]
  simp only [decodeFields, fieldTags_none]
  rw [hh old.1, hh blockTy.zero.1]
  cases decode noLimit headerTy headerTy.zero {} data with
  | err e r => rfl
  | panic => rfl
  | ok v r =>
    simp only
    rw [hi old.2.1, show (blockTy.zero.2.1 : Interlink) = interlink.zero from rfl]
    cases decode noLimit (.custom interlink) interlink.zero {} r with
    | err e r => rfl
    | panic => rfl
    | ok il r =>
      simp only [Res.map]
      cases fieldTags tagOptional with
      | none => rfl
      | some ts =>
        simp only
        rw [hb old.2.2.1, show blockTy.zero.2.2.1 = none from rfl]
        cases decode noLimit (.ptr bodyTy) none ts r with
        | err e r => rfl
        | panic => rfl
        | ok v r => rfl

/-- The wire types that can be decoded over an old value: every struct and message except the block, the peer address header
and the two messages that keep their direction or type in the receiver. -/
theorem C98_wire_fresh_partial : Fresh SignatureProof.ty ∧ Fresh BasicTx.ty ∧ Fresh ExtendedTx.ty ∧ Fresh TxContent.ty ∧
    Fresh (.custom bitSet) ∧ Fresh (.custom hash) ∧ Fresh (.custom merklePath) ∧ Fresh (.custom wrapTx) ∧
    Fresh (.custom wrapAccount) ∧ Fresh (.custom peerAddress) ∧ Fresh BasicAccount.ty ∧ Fresh VestingAccount.ty ∧
    Fresh HTLCAccount.ty ∧ Fresh accountPrunedTy ∧ Fresh headerTy ∧ Fresh bodyTy ∧ Fresh versionTy ∧ Fresh invTy ∧
    Fresh getBlocksTy ∧ Fresh headMsgTy ∧ Fresh txMsgTy ∧ Fresh addrTy ∧ Fresh getAddrTy ∧ Fresh verAckTy ∧
    Fresh getTxReceiptsTy ∧ Fresh getTxProofTy ∧ Fresh accountsProofTy ∧ Fresh accountsTreeChunkTy ∧ Fresh stakingTy := by
  have hb : Fresh (.custom bitSet) := by intro p p' d; rfl
  have hh : Fresh (.custom hash) := by intro p p' d; rfl
  have hm : Fresh (.custom merklePath) := by intro p p' d; rfl
  have ht : Fresh (.custom wrapTx) := by intro p p' d; rfl
  have ha : Fresh (.custom wrapAccount) := by intro p p' d; rfl
  have hp := peerAddress_fresh
  refine ⟨?_, ?_, ?_, ?_, hb, hh, hm, ht, ha, hp, ?_, ?_, ?_, ?_, ?_, ?_, ?_, ?_, ?_, ?_, ?_, ?_, ?_, ?_, ?_, ?_, ?_, ?_, ?_⟩
  all_goals
    simp only [SignatureProof.ty, BasicTx.ty, ExtendedTx.ty, TxContent.ty, BasicAccount.ty, VestingAccount.ty,
      HTLCAccount.ty, accountPrunedTy, headerTy, bodyTy, versionTy, invTy, getBlocksTy, headMsgTy, txMsgTy, addrTy,
      getAddrTy, verAckTy, getTxReceiptsTy, getTxProofTy, accountsProofTy, accountsTreeChunkTy, stakingTy]
    unfold Fresh
    repeat' first
      | trivial
      | exact hm
      | exact hh
      | exact ht
      | exact ha
      | exact hp
      | unfold FreshFields
      | refine ⟨?_, ?_⟩
      | unfold Fresh

/-- C98 is false for net addresses: every valid encoding decodes to different values over old values of different type. -/
theorem C98_netaddress_violated (p p' : NetAddress) (hne : p.type ≠ p'.type) (ip rest : Bytes)
    (hl : ip.length = 4 ∨ ip.length = 16) :
    ∃ n v v', NetAddress.dec p ((if ip.length = 4 then 0 else 1) :: ip ++ rest) = .ok (n, v) ∧
      NetAddress.dec p' ((if ip.length = 4 then 0 else 1) :: ip ++ rest) = .ok (n, v') ∧
      v.ip = ip ∧ v'.ip = ip ∧ v ≠ v' ∧ v.enc [] ≠ v'.enc [] := by
  have hz0 : getNum .u8 [0] = (0 : UInt8) := by decide
  have hz1 : getNum .u8 [1] = (1 : UInt8) := by decide
  have henc : ∀ a b : NetAddress, a.type ≠ b.type → a.enc [] ≠ b.enc [] := by
    intro a b h e
    simp only [NetAddress.enc, List.nil_append, List.cons_append, Out.ok.injEq, List.cons.injEq] at e
    exact h e.1
  rcases hl with hl | hl
  · rw [if_pos hl]
    have hp : pop 1 ((0 : UInt8) :: ip ++ rest) = some ([0], ip ++ rest) := by simp [pop]
    simp only [NetAddress.dec, Unmarshal, decode, NumKind.size, hp, hz0, if_true]
    rw [if_neg (by rw [List.length_append]; omega), if_neg (by rw [List.length_append]; omega), List.take_left' hl]
    exact ⟨_, _, _, rfl, rfl, rfl, rfl, fun e => hne (NetAddress.mk.inj e).1, henc _ _ hne⟩
  · rw [if_neg (by omega)]
    have hp : pop 1 ((1 : UInt8) :: ip ++ rest) = some ([1], ip ++ rest) := by simp [pop]
    simp only [NetAddress.dec, Unmarshal, decode, NumKind.size, hp, hz1]
    rw [if_neg (by decide), if_pos trivial, if_neg (by rw [List.length_append]; omega), if_neg (by decide), if_pos trivial,
      if_neg (by rw [List.length_append]; omega), List.take_left' hl]
    exact ⟨_, _, _, rfl, rfl, rfl, rfl, fun e => hne (NetAddress.mk.inj e).1, henc _ _ hne⟩

/-- C98 is false for blocks: whatever is accepted as a block decodes to different blocks over old blocks with different
`PrevHash`. -/
theorem C98_block_violated (p p' : blockTy.Val) (hne : Interlink.prevHash p.2.1 ≠ Interlink.prevHash p'.2.1)
    (data rest : Bytes) (v : blockTy.Val) (h : Unmarshal blockTy p data = .ok v rest) :
    ∃ v', Unmarshal blockTy p' data = .ok v' rest ∧ v' ≠ v := by
  rw [C98_block_exact] at h ⊢
  cases hu : Unmarshal blockTy blockTy.zero data with
  | err e r => rw [hu] at h; simp [Res.map] at h
  | panic => rw [hu] at h; simp [Res.map] at h
  | ok w r =>
    rw [hu] at h
    simp only [Res.map] at h ⊢
    obtain ⟨h1, h2⟩ := Res.ok.inj h
    subst h1
    subst h2
    exact ⟨_, rfl, fun e => hne (congrArg (fun x => Interlink.prevHash x.2.1) e).symm⟩

set_option maxRecDepth 20000 in
/-- The 148 byte encoding of a block with an empty interlink and no body meets the hypotheses of `C98_block_violated`. -/
example (p : blockTy.Val) : ∃ v rest, Unmarshal blockTy p (List.replicate 148 0) = .ok v rest ∧ rest = [] ∧
    Interlink.prevHash v.2.1 = Interlink.prevHash p.2.1 := by
  rw [C98_block_exact]
  exact ⟨_, _, rfl, by decide, rfl⟩
end Nimiq.Wire
