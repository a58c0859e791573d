import Verif.Wire.Heap
import Verif.Beserial.Append
import Verif.Wire.Messages
/-!
# C121 for the protocol types

What marshalling blocks, transactions and messages writes to.
-/
namespace Nimiq.Wire
open Beserial Beserial.Spec

theorem pureActs_lits (h : Heap) : ∀ (l : List Hash32) (b : Bytes),
    pureActs h (l.map fun x => Act.append (.lit x.val)) b = l.foldl (fun b x => b ++ x.val) b
  | [], _ => rfl
  | x :: l, b => by rw [List.map_cons, pureActs, List.foldl_cons]; exact pureActs_lits h l _

theorem actRefs_lits : ∀ (l : List Hash32), actRefs (l.map fun x => Act.append (.lit x.val)) = []
  | [] => rfl
  | x :: l => by rw [List.map_cons, actRefs]; exact actRefs_lits l

theorem bitSetH_e : LawfulE bitSetH where
  enc h v b _ := rfl
  refs v r hr := by simpa [bitSetH, Trace.put, actRefs] using hr

theorem merklePathH_e : LawfulE merklePathH where
  enc h v b _ := by
    show Out.ok (v.2.foldl (fun b h => b ++ h.val) ((b ++ [v.1.1]) ++ v.1.2.bytes h)) = _
    simp only [merklePathH, Trace.put, pureRun, List.map_cons, List.map_map, pureActs, Src.bytes]
    rw [← pureActs_lits h]
    rfl
  refs v r hr := by
    simp only [merklePathH, Trace.put, List.map_cons, List.map_map, actRefs] at hr ⊢
    have h1 := actRefs_lits v.2
    simp only [Function.comp_def] at hr
    rw [h1] at hr
    exact hr

theorem interlinkH_e : LawfulE interlinkH where
  enc h v b _ := by
    show Out.ok (v.2.2.2.foldl (fun b h => b ++ h.val) ((b ++ [v.1.1]) ++ v.1.2.bytes h)) = _
    simp only [interlinkH, Trace.put, pureRun, List.map_cons, List.map_map, pureActs, Src.bytes]
    rw [← pureActs_lits h]
    rfl
  refs v r hr := by
    simp only [interlinkH, Trace.put, List.map_cons, List.map_map, actRefs] at hr ⊢
    have h1 := actRefs_lits v.2.2.2
    simp only [Function.comp_def] at hr
    rw [h1] at hr
    exact hr

theorem basicTxH_e : EGood basicTxH := by simp [basicTxH, EGood, EGoodFields]
theorem extendedTxH_e : EGood extendedTxH := by simp [extendedTxH, EGood, EGoodFields]

/-- A type byte and then a value. -/
theorem tagged_e {t : HTy} (ht : EGood t) (k : UInt8) (v : t.Cell) (h : Heap) (b : Bytes) (hr : ∀ r ∈ t.refs v, r.Ok h) :
    Marshal (b ++ [k]) t.erase (t.load h v) = pureRun h ((Trace.put [.lit [k]]).andThen (acts t v {})) b := by
  unfold Marshal
  rw [acts_spec t v {} h _ ht hr, pureRun_andThen]
  rfl

theorem tagged_refs {t : HTy} (ht : EGood t) (k : UInt8) (v : t.Cell) :
    ∀ r ∈ actRefs ((Trace.put [.lit [k]]).andThen (acts t v {})).1, r ∈ t.refs v := fun r hr =>
  acts_refs t v {} ht r ((andThen_refs _ _ r hr).resolve_left (by simp [Trace.put, actRefs]))

theorem wrapTxH_e : LawfulE wrapTxH where
  enc h v b hr := by
    cases v with
    | none => rfl
    | some x =>
      cases x with
      | basic c => exact tagged_e basicTxH_e 0 c h b (by rw [basicTxH_refs]; simp)
      | extended c => exact tagged_e extendedTxH_e 1 c h b hr
  refs v r hr := by
    cases v with
    | none => simp [wrapTxH, actRefs] at hr
    | some x =>
      cases x with
      | basic c =>
        have := tagged_refs basicTxH_e 0 c r hr
        rw [basicTxH_refs] at this
        simp at this
      | extended c => exact tagged_refs extendedTxH_e 1 c r hr

theorem hashH_e : LawfulE hashH where
  enc h v b _ := rfl
  refs v r hr := by simp [hashH, HCodec.plain, Trace.put, actRefs] at hr

theorem basicAccountH_e : EGood basicAccountH := by simp [basicAccountH, EGood, EGoodFields]
theorem vestingAccountH_e : EGood vestingAccountH := by simp [vestingAccountH, EGood, EGoodFields]
theorem htlcAccountH_e : EGood htlcAccountH := by simp [htlcAccountH, EGood, EGoodFields, hashH_e]

theorem wrapAccountH_e : LawfulE wrapAccountH where
  enc h v b _ := by
    cases v with
    | none => rfl
    | some x =>
      cases x with
      | basic a => exact tagged_e basicAccountH_e 0 a.toVal h b (by simp [basicAccountH, HTy.refs, HFields.refs])
      | vesting a => exact tagged_e vestingAccountH_e 1 a.toVal h b (by simp [vestingAccountH, HTy.refs, HFields.refs])
      | htlc a => exact tagged_e htlcAccountH_e 2 a.toVal h b (by
          simp [htlcAccountH, hashH, HCodec.plain, HTy.refs, HFields.refs])
  refs v r hr := by
    cases v with
    | none => simp [wrapAccountH, HCodec.plain, actRefs] at hr
    | some x =>
      cases x with
      | basic a =>
        have := tagged_refs basicAccountH_e 0 a.toVal r hr
        simp [basicAccountH, HTy.refs, HFields.refs] at this
      | vesting a =>
        have := tagged_refs vestingAccountH_e 1 a.toVal r hr
        simp [vestingAccountH, HTy.refs, HFields.refs] at this
      | htlc a =>
        have := tagged_refs htlcAccountH_e 2 a.toVal r hr
        simp [htlcAccountH, hashH, HCodec.plain, HTy.refs, HFields.refs] at this

theorem netAddressH_e : LawfulE netAddressH where
  enc h v b _ := rfl
  refs v r hr := by simpa [netAddressH, Trace.put, actRefs] using hr

theorem peerAddressHeaderH_e : EGood peerAddressHeaderH := by
  simp [peerAddressHeaderH, EGood, EGoodFields, netAddressH_e]

theorem peerAddressH_e : LawfulE peerAddressH where
  enc h v b hr := by
    show PeerAddress.enc ⟨PeerAddressHeader.ofVal (peerAddressHeaderH.load h v.1), v.2⟩ b =
      pureRun h ((acts peerAddressHeaderH v.1 {}).andThen (acts detailH v.2 {})) b
    unfold PeerAddress.enc
    rw [pureRun_andThen]
    have h1 : Marshal b PeerAddressHeader.ty (PeerAddressHeader.ofVal (peerAddressHeaderH.load h v.1)).toVal =
        pureRun h (acts peerAddressHeaderH v.1 {}) b := acts_spec peerAddressHeaderH v.1 {} h b peerAddressHeaderH_e hr
    dsimp only
    rw [h1]
    cases pureRun h (acts peerAddressHeaderH v.1 {}) b with
    | ok b =>
      show Marshal b detailTy v.2 = _
      simp only [Marshal, detailTy, detailH, marshal, acts, Out.bind_ok, pureRun]
    | err e => rfl
    | panic => rfl
  refs v r hr := by
    rcases andThen_refs _ _ r hr with h0 | h0
    · exact acts_refs _ v.1 {} peerAddressHeaderH_e r h0
    · simp [detailH, acts, actRefs] at h0

theorem headerH_e : EGood headerH := by simp [headerH, EGood, EGoodFields]
theorem bodyH_e : EGood bodyH := by simp [bodyH, accountPrunedH, EGood, EGoodFields, wrapTxH_e, wrapAccountH_e]
theorem blockH_e : EGood blockH := ⟨headerH_e, interlinkH_e, ⟨bodyH_e, rfl⟩, trivial⟩
theorem versionH_e : EGood versionH := by simp [versionH, EGood, EGoodFields, peerAddressH_e]
theorem invH_e : EGood invH := by simp [invH, EGood, EGoodFields]
theorem getBlocksH_e : EGood getBlocksH := by simp [getBlocksH, EGood, EGoodFields]
theorem blockMsgH_e : EGood blockMsgH := ⟨blockH_e, trivial⟩
theorem headMsgH_e : EGood headMsgH := ⟨headerH_e, trivial⟩
theorem txMsgH_e : EGood txMsgH := ⟨wrapTxH_e, trivial⟩
theorem addrH_e : EGood addrH := by simp [addrH, EGood, EGoodFields, peerAddressH_e]
theorem getAddrH_e : EGood getAddrH := by simp [getAddrH, EGood, EGoodFields]
theorem pingH_e : EGood pingH where
  enc h v b _ := rfl
  refs v r hr := by simp [HCodec.plain, Trace.put, actRefs] at hr
theorem verAckH_e : EGood verAckH := by simp [verAckH, EGood, EGoodFields]
theorem signatureProofH_e : EGood signatureProofH := by simp [signatureProofH, EGood, EGoodFields, merklePathH_e]

/-! ### Marshalling that cannot fail -/

theorem put_total (ss : List Src) : (Trace.put ss).Total := .put ss
theorem basicTxH_total : Total basicTxH {} := by simp [basicTxH, Total, TotalFields]
theorem extendedTxH_total : Total extendedTxH {} := by simp [extendedTxH, Total, TotalFields]

theorem wrapTxH_total (v : wrapTxH.Cell) : (wrapTxH.acts v).Total := by
  cases v with
  | none => exact ⟨by simp [wrapTxH], by simp [wrapTxH]⟩
  | some x =>
    cases x with
    | basic c => exact (Trace.Total.put _).andThen (acts_total _ _ _ basicTxH_total)
    | extended c => exact (Trace.Total.put _).andThen (acts_total _ _ _ extendedTxH_total)

theorem basicAccountH_total : Total basicAccountH {} := by simp [basicAccountH, Total, TotalFields]
theorem vestingAccountH_total : Total vestingAccountH {} := by simp [vestingAccountH, Total, TotalFields]
theorem htlcAccountH_total : Total htlcAccountH {} := by
  simp [htlcAccountH, Total, TotalFields, hashH, HCodec.plain, Trace.put]

theorem wrapAccountH_total (v : wrapAccountH.Cell) : (wrapAccountH.acts v).Total := by
  cases v with
  | none => exact ⟨by simp [wrapAccountH, HCodec.plain], by simp [wrapAccountH, HCodec.plain]⟩
  | some x =>
    cases x with
    | basic c => exact (Trace.Total.put _).andThen (acts_total _ _ _ basicAccountH_total)
    | vesting c => exact (Trace.Total.put _).andThen (acts_total _ _ _ vestingAccountH_total)
    | htlc c => exact (Trace.Total.put _).andThen (acts_total _ _ _ htlcAccountH_total)

theorem bodyH_total (ts : Tags) : Total bodyH ts := by
  simp only [bodyH, accountPrunedH, Total, TotalFields, fieldTags_none, fieldTags_u8, fieldTags_u16]
  refine ⟨fun _ _ => trivial, ?_, ?_, ?_, trivial⟩
  · rintro ts ⟨⟩; simp
  · rintro ts ⟨⟩; exact ⟨by simp, wrapTxH_total⟩
  · rintro ts ⟨⟩; exact ⟨by simp, fun _ _ => trivial, fun _ _ => wrapAccountH_total, trivial⟩

theorem headerH_total (ts : Tags) : Total headerH ts := by simp [headerH, Total, TotalFields]

theorem blockH_total (ts : Tags) : Total blockH ts := by
  refine ⟨fun ts _ => headerH_total ts, fun _ _ v => put_total _, ?_, trivial⟩
  intro ts h
  rw [fieldTags_optional] at h
  cases h
  exact ⟨rfl, bodyH_total _⟩

/-- **C121** for blocks: marshalled behind whatever a buffer holds, without reallocation if the capacity suffices. -/
theorem C121_block (grow : Nat → Nat → Nat) (hg : ∀ c n, n ≤ grow c n) (v : blockH.Cell) (h : Heap) (b : Buf) (hb : b.Valid h)
    (hr : ∀ r ∈ blockH.refs v, r.len = 0 ∨ (r.Valid h ∧ ∀ j, r.off ≤ j → j < r.off + r.len →
      ¬ (r.arr = b.arr ∧ b.off + b.len ≤ j ∧ j < b.off + b.cap))) (enc : Bytes)
    (henc : Marshal [] blockTy (blockH.load h v) = .ok enc) :
    ∃ b', (MarshalH grow blockH v h b).2 = .ok b' ∧
      b'.ref.bytes (MarshalH grow blockH v h b).1 = b.ref.bytes h ++ enc ∧
      blockH.load (MarshalH grow blockH v h b).1 v = blockH.load h v ∧
      (b.len + enc.length ≤ b.cap → b'.arr = b.arr ∧ (MarshalH grow blockH v h b).1.length = h.length) := by
  have h1 := C121_result_is_the_encoding grow hg blockH blockH_e blockH_good v h b hb hr
  have hr' : ∀ r ∈ blockH.refs v, r.Valid h ∨ r.len = 0 := fun r h0 => (hr r h0).elim .inr fun h1 => .inl h1.1
  have h2 := Marshal_total blockH_e (blockH_total _) hr' henc (b.ref.bytes h)
  rw [h2] at h1
  have h3 := fun hc => C121_in_place grow hg blockH blockH_e (blockH_total _) v h b hb hr' enc henc hc
  unfold shown at h1
  cases hx : MarshalH grow blockH v h b with
  | mk h' o =>
    rw [hx] at h1 h3
    cases o with
    | ok b' =>
      simp only [Out.ok.injEq] at h1
      refine ⟨b', rfl, h1.1, h1.2, fun hc => ⟨?_, (h3 hc).1⟩⟩
      have := (h3 hc).2
      simp only [Out.ok.injEq] at this
      rw [this]
    | err e => simp at h1
    | panic => simp at h1

/-! ### Messages -/

theorem MsgCell.arg_eq (m : MsgCell) (h : Heap) : (m.load h).arg = .pointer m.var.1.erase (some (m.var.1.load h m.var.2)) := by
  cases m <;> rfl
theorem MsgCell.refs_eq (m : MsgCell) : m.refs = m.var.1.refs m.var.2 := by cases m <;> rfl
theorem MsgCell.e (m : MsgCell) : EGood m.var.1 := by
  cases m with
  | version c => exact versionH_e
  | inv c => exact invH_e
  | getBlocks c => exact getBlocksH_e
  | block c => exact blockMsgH_e
  | header c => exact headMsgH_e
  | tx c => exact txMsgH_e
  | addr c => exact addrH_e
  | getAddr c => exact getAddrH_e
  | ping c => exact pingH_e
  | head c => exact headMsgH_e
  | verAck c => exact verAckH_e

/-- Messages that can be sent are marshalled without dropping anything. -/
theorem MsgCell.no_reset (m : MsgCell) (h : Heap) (hs : Sendable (m.load h)) : ∀ a ∈ (acts m.var.1 m.var.2 {}).1, a ≠ .reset := by
  cases m with
  | getBlocks c => exact (acts_total getBlocksH {} c (by simp [getBlocksH, Total, TotalFields])).1
  | header c => exact (acts_total headMsgH {} c ⟨fun ts _ => headerH_total ts, trivial⟩).1
  | head c => exact (acts_total headMsgH {} c ⟨fun ts _ => headerH_total ts, trivial⟩).1
  | getAddr c => exact (acts_total getAddrH {} c (by simp [getAddrH, Total, TotalFields])).1
  | verAck c => exact (acts_total verAckH {} c (by simp [verAckH, Total, TotalFields])).1
  | addr c =>
    obtain ⟨l, u⟩ := c
    have hl : l = [] := by
      have : l.map _ = [] := hs
      simpa using this
    subst hl
    simp only [MsgCell.var, addrH, acts, actsFields, fieldTags_u16]
    simp [Trace.put, Trace.andThen, Trace.all]
  | version c => exact hs.elim
  | inv c => exact hs.elim
  | block c => exact hs.elim
  | tx c => exact hs.elim
  | ping c => exact hs.elim

theorem appendH_arr (grow : Nat → Nat → Nat) (h : Heap) (b : Buf) (s : Bytes) (n : Nat) (hb : n ≤ b.arr) (hn : n ≤ h.length) :
    n ≤ (appendH grow h b s).2.arr ∧ n ≤ (appendH grow h b s).1.length := by
  unfold appendH
  by_cases hc : b.len + s.length ≤ b.cap
  · rw [if_pos hc]; exact ⟨hb, by rw [List.length_set]; exact hn⟩
  · rw [if_neg hc]; exact ⟨hn, by simp only [List.length_append]; omega⟩

theorem runActs_arr (grow : Nat → Nat → Nat) (n : Nat) : ∀ (as : List Act) (h : Heap) (b : Buf), (∀ a ∈ as, a ≠ .reset) →
    n ≤ b.arr → n ≤ h.length → n ≤ (runActs grow as h b).2.arr
  | [], _, _, _, hb, _ => hb
  | .reset :: _, _, _, hn, _, _ => absurd rfl (hn .reset (by simp))
  | .append s :: as, h, b, hn, hb, hl => by
    obtain ⟨h1, h2⟩ := appendH_arr grow h b (s.bytes h) n hb hl
    rw [runActs]
    exact runActs_arr grow n as _ _ (fun a ha => hn a (by simp [ha])) h1 h2

/-- **C121** for messages: `MarshalMessage` writes to no memory that existed, its result is that of the model without memory,
in an array that is new; so neither sending it nor changing it affects the message or anything else. -/
theorem C121_message (grow : Nat → Nat → Nat) (hg : ∀ c n, n ≤ grow c n) (m : MsgCell) (h : Heap)
    (hr : ∀ r ∈ m.refs, r.Valid h ∨ r.len = 0) :
    h <+: (MarshalMessageH grow m h).1 ∧
    shown (MarshalMessageH grow m h) = MarshalMessage (m.load h) ∧
    (∀ b', (MarshalMessageH grow m h).2 = .ok b' → h.length ≤ b'.arr) ∧ m.load (MarshalMessageH grow m h).1 = m.load h := by
  have key : h <+: (MarshalMessageH grow m h).1 ∧
    shown (MarshalMessageH grow m h) = MarshalMessage (m.load h) ∧
    (∀ b', (MarshalMessageH grow m h).2 = .ok b' → Sendable (m.load h) → h.length ≤ b'.arr) := by
    unfold MarshalMessageH MarshalMessage
    cases hsz : sizeArg (m.load h).arg with
    | ok size =>
      dsimp only
      have hpre : h <+: h ++ [putBE 8 (m.load h).type.toNat ++ List.replicate size 0] := List.prefix_append _ _
      have h8 : (putBE 8 (m.load h).type.toNat).length = 8 := putBE_length _ _
      generalize hty : putBE 8 (m.load h).type.toNat = ty at *
      have hget : (h ++ [ty ++ List.replicate size 0])[h.length]?.getD [] = ty ++ List.replicate size 0 := getD_append_new _ _
      have hb : Buf.Valid (h ++ [ty ++ List.replicate size 0]) ⟨h.length, 0, 8, 8 + size⟩ := by
        refine ⟨by simp, .inr ⟨by simp, ?_⟩⟩
        dsimp only
        rw [hget]
        simp [h8]
      have hclear : ∀ r ∈ m.var.1.refs m.var.2, Clear (h ++ [ty ++ List.replicate size 0]) ⟨h.length, 0, 8, 8 + size⟩ r := by
        rw [← MsgCell.refs_eq]
        intro r h0
        rcases hr r h0 with h1 | h1
        · refine .inr ⟨h1.mono hpre, ?_⟩
          rintro j _ _ ⟨h3, _⟩
          have := h1.1
          dsimp only at h3
          omega
        · exact .inl h1
      have hld : m.load (h ++ [ty ++ List.replicate size 0]) = m.load h := MsgCell.load_congr m _ _ fun r h0 =>
        Ref.bytes_prefix hpre ((hr r h0).elim (fun h1 => h1.stable) .inl)
      have hf := (MarshalH_frame hg m.var.1 m.var.2 _ _ hb).1
      have hsp := MarshalH_spec hg m.var.1 m.e m.var.2 _ _ hb hclear
      refine ⟨?_, ?_, ?_⟩
      · refine ⟨(MarshalH grow m.var.1 m.var.2 (h ++ [ty ++ List.replicate size 0]) ⟨h.length, 0, 8, 8 + size⟩).1.drop h.length, ?_⟩
        apply List.ext_getElem?
        intro i
        have hlen := hf.1
        rw [List.length_append] at hlen
        by_cases hi : i < h.length
        · rw [List.getElem?_append_left hi]
          have h2 : h[i]?.getD [] =
              (MarshalH grow m.var.1 m.var.2 (h ++ [ty ++ List.replicate size 0]) ⟨h.length, 0, 8, 8 + size⟩).1[i]?.getD [] := by
            apply List.ext_getElem?
            intro j
            rw [(hf.2 i (by simp; omega)).2 j ?_, List.getElem?_append_left hi]
            rintro ⟨h3, _⟩
            dsimp only at h3
            omega
          rw [List.getElem?_eq_getElem hi, List.getElem?_eq_getElem (by omega)] at h2 ⊢
          simpa using h2
        · rw [List.getElem?_append_right (by omega), List.getElem?_drop]
          congr 1
          omega
      · rw [hsp, ← hld, MsgCell.arg_eq]
        show marshal _ _ _ _ = marshal _ _ _ _
        congr 1
        unfold Buf.ref Ref.bytes
        dsimp only
        rw [hget, List.drop_zero]
        exact List.take_left' h8
      · intro b' he hs
        have hn := MsgCell.no_reset m h hs
        unfold MarshalH at he
        cases hx : acts m.var.1 m.var.2 {} with
        | mk as o =>
          rw [hx] at he hn
          cases o with
          | ok u =>
            cases u
            simp only [Out.ok.injEq] at he
            subst he
            exact runActs_arr grow h.length as _ _ hn (Nat.le_refl _) (by simp)
          | err e => simp at he
          | panic => simp at he
    | err e => exact ⟨List.prefix_refl _, rfl, fun b' he => by simp at he⟩
    | panic => exact ⟨List.prefix_refl _, rfl, fun b' he => by simp at he⟩
  refine ⟨key.1, key.2.1, ?_, ?_⟩
  · intro b' he
    have h1 := key.2.1
    unfold shown at h1
    rw [he] at h1
    exact key.2.2 b' he ((C42_sendable_partial _).1 ⟨_, h1.symm⟩)
  · exact MsgCell.load_congr m _ _ fun r h0 => Ref.bytes_prefix key.1 ((hr r h0).elim (fun h1 => h1.stable) .inl)

/-- The condition on the spare capacity is needed: a value with a slice into it.  It is bytes 1 and 2 of an array of
which the buffer is `a[:1]`; its length is written over them before they are copied. -/
example : let t : HTy := .struct (.cons tagU16 .byteSlice .nil)
    let h : Heap := [[0xee, 1, 2, 3, 4]]
    let v : t.Cell := (⟨0, 1, 2⟩, ())
    let out := MarshalH (fun _ n => n) t v h ⟨0, 0, 1, 5⟩
    Marshal [0xee] t.erase (t.load h v) = .ok [0xee, 0, 2, 1, 2] ∧
    out.2 = .ok ⟨0, 0, 5, 5⟩ ∧ out.1 = [[0xee, 0, 2, 0, 2]] ∧ t.load out.1 v = ([0, 2], ()) := ⟨rfl, rfl, rfl, rfl⟩

/-- Two values in one buffer. -/
example : let t : HTy := .struct (.cons tagU8 .str .nil)
    let h : Heap := [[0xee, 0, 0, 0, 0, 0xdd]]
    let one := MarshalH (fun _ n => n) t ([7, 8], ()) h ⟨0, 0, 1, 5⟩
    let two := MarshalH (fun _ n => n) t ([9, 9, 9], ()) one.1 ⟨0, 0, 1, 5⟩
    one = ([[0xee, 2, 7, 8, 0, 0xdd]], .ok ⟨0, 0, 4, 5⟩) ∧ two = ([[0xee, 3, 9, 9, 9, 0xdd]], .ok ⟨0, 0, 5, 5⟩) ∧
    Ref.bytes two.1 ⟨0, 0, 4⟩ = [0xee, 3, 9, 9] := ⟨rfl, rfl, rfl⟩

/-- A message sent while another array exists. -/
example : MarshalMessageH (fun _ n => n) (.getAddr ((1 : UInt8), (2 : UInt32), (3 : UInt16), ())) [[9]] =
    ([[9], [0, 0, 0, 0, 0, 0, 0, 21, 1, 0, 0, 0, 2, 0, 3]], .ok ⟨1, 0, 15, 15⟩) := rfl

/-- A transaction message that was decoded and is written over its own input (`append(buf[:0], ...)`), with a new `Data` that
is one byte longer, so that the result is moved to a new array; the input is partly overwritten on the way. -/
example : let v : txMsgH.Cell := (some (.extended (⟨1, 0, 3⟩, BArr.zero 20, (0 : UInt8), BArr.zero 20, (0 : UInt8), (0 : UInt64),
      (0 : UInt64), (0 : UInt32), (0 : UInt8), (0 : UInt8), Ref.nil, ())), ())
    let out := MarshalH (fun _ n => n) txMsgH v [List.replicate 6 0xee, [7, 8, 9]] ⟨0, 0, 0, 6⟩
    out.1.take 2 = [[1, 0, 3, 7, 8, 9], [7, 8, 9]] ∧
      (match out.2 with
      | .ok b => b.arr = 11 ∧ b.ref.bytes out.1 = [1, 0, 3, 7, 8, 9] ++ List.replicate 66 0
      | _ => False) := ⟨rfl, rfl, rfl⟩

end Nimiq.Wire
