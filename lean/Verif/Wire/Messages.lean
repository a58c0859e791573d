import Verif.Wire.Interlink
/-!
# P2P messages (C41-C44)
-/
namespace Nimiq.Wire
open Beserial Beserial.Spec

/-! ## Types of fixed length -/

mutual
/-- Length of the encodings of a type made of numbers, byte arrays and structs without tags. -/
def fixedLen : Ty → Option Nat
  | .num k => some k.size
  | .byteArr n => some n
  | .struct fs => fixedFields fs
  | _ => none
def fixedFields : Fields → Option Nat
  | .nil => some 0
  | .cons none t fs =>
    match fixedLen t, fixedFields fs with
    | some a, some b => some (a + b)
    | _, _ => none
  | .cons (some _) _ _ => none
end

theorem pop_lt {n : Nat} {d : Bytes} (h : d.length < n) : pop n d = none := by simp [pop, h]
theorem pop_ge {n : Nat} {d : Bytes} (h : n ≤ d.length) : pop n d = some (d.take n, d.drop n) := by
  rw [pop, if_neg (by omega)]

mutual
theorem decode_fixed (lim : Nat → Bool) : ∀ (t : Ty) (n : Nat) (prev : t.Val) (ts : Tags) (d : Bytes), fixedLen t = some n →
    (n ≤ d.length → ∃ v, decode lim t prev ts d = .ok v (d.drop n)) ∧
    (d.length < n → ∃ e r, decode lim t prev ts d = .err e r)
  | .num k, n, prev, ts, d, h => by
    simp only [fixedLen, Option.some.injEq] at h
    subst h
    simp only [decode]
    exact ⟨fun hd => by rw [pop_ge hd]; exact ⟨_, rfl⟩, fun hd => by rw [pop_lt hd]; exact ⟨_, _, rfl⟩⟩
  | .byteArr m, n, prev, ts, d, h => by
    simp only [fixedLen, Option.some.injEq] at h
    subst h
    simp only [decode]
    exact ⟨fun hd => by rw [pop_ge hd]; exact ⟨_, rfl⟩, fun hd => by rw [pop_lt hd]; exact ⟨_, _, rfl⟩⟩
  | .struct fs, n, prev, ts, d, h => by
    simp only [fixedLen] at h
    simp only [decode]
    exact decodeFields_fixed lim fs n prev d h
  | .bool, _, _, _, _, h | .str, _, _, _, _, h | .byteSlice, _, _, _, _, h | .arr _ _, _, _, _, _, h
  | .slice _, _, _, _, _, h | .ptr _, _, _, _, _, h | .custom _, _, _, _, _, h | .unsupported _ _, _, _, _, _, h => by
    simp [fixedLen] at h
theorem decodeFields_fixed (lim : Nat → Bool) : ∀ (fs : Fields) (n : Nat) (prev : fs.Val) (d : Bytes),
    fixedFields fs = some n →
    (n ≤ d.length → ∃ v, decodeFields lim fs prev d = .ok v (d.drop n)) ∧
    (d.length < n → ∃ e r, decodeFields lim fs prev d = .err e r)
  | .nil, n, prev, d, h => by
    simp only [fixedFields, Option.some.injEq] at h
    subst h
    exact ⟨fun _ => ⟨(), by simp [decodeFields]⟩, fun hd => absurd hd (Nat.not_lt_zero _)⟩
  | .cons (some _) _ _, n, prev, d, h => by simp [fixedFields] at h
  | .cons none t fs, n, prev, d, h => by
    simp only [fixedFields] at h
    cases ha : fixedLen t with
    | none => simp [ha] at h
    | some a =>
      cases hb : fixedFields fs with
      | none => simp [ha, hb] at h
      | some b =>
        simp only [ha, hb, Option.some.injEq] at h
        subst h
        simp only [decodeFields, fieldTags_none]
        obtain ⟨h1, h2⟩ := decode_fixed lim t a prev.1 {} d ha
        by_cases hd : a ≤ d.length
        · obtain ⟨v, hv⟩ := h1 hd
          obtain ⟨h3, h4⟩ := decodeFields_fixed lim fs b prev.2 (d.drop a) hb
          rw [List.length_drop] at h3 h4
          simp only [hv]
          constructor
          · intro hl
            obtain ⟨w, hw⟩ := h3 (by omega)
            exact ⟨(v, w), by simp [hw, Res.map, List.drop_drop]⟩
          · intro hl
            obtain ⟨e, r, he⟩ := h4 (by omega)
            exact ⟨e, r, by simp [he, Res.map]⟩
        · obtain ⟨e, r, he⟩ := h2 (by omega)
          exact ⟨fun _ => by omega, fun _ => ⟨e, r, by simp [he]⟩⟩
end

theorem header_fixed : fixedLen headerTy = some 146 := by
  simp [headerTy, fixedLen, fixedFields, NumKind.size]

/-! ## The junk check -/

theorem finishMessage_eq (t : Ty) (prev : t.Val) (mk : t.Val → Msg) (buf : Bytes) :
    finishMessage t prev mk buf = match UnmarshalFull t prev buf with
      | .ok v => .ok (mk v)
      | .err e => .err e
      | .panic => .panic := by
  unfold finishMessage UnmarshalFull
  cases h : Unmarshal t prev buf with
  | err e r => rfl
  | panic => rfl
  | ok v rest =>
    simp only
    by_cases hr : buf.length > buf.length - rest.length
    · rw [if_pos (by omega), if_pos hr]
    · rw [if_neg (by omega), if_neg hr]

theorem finish_ok {t : Ty} (ht : Good t) (prev : t.Val) (mk : t.Val → Msg) {v : t.Val} {bs : Bytes}
    (h : enc t {} v = some bs) : finishMessage t prev mk bs = .ok (mk v) := by
  rw [finishMessage_eq, (C37_full_canonical t ht prev v bs).mpr h]

theorem finish_inv {t : Ty} {prev : t.Val} {mk : t.Val → Msg} {buf : Bytes} {m : Msg}
    (h : finishMessage t prev mk buf = .ok m) : ∃ v r, Unmarshal t prev buf = .ok v r ∧ m = mk v := by
  unfold finishMessage at h
  cases hu : Unmarshal t prev buf with
  | err e r => simp [hu] at h
  | panic => simp [hu] at h
  | ok v rest =>
    simp only [hu] at h
    split at h
    · cases h
    · cases h; exact ⟨v, rest, rfl, rfl⟩

theorem finish_ne_panic {t : Ty} (ht : Safe t) (prev : t.Val) (mk : t.Val → Msg) (buf : Bytes) :
    finishMessage t prev mk buf ≠ .panic := by
  have := decode_ne_panic noLimit buf.length (fun _ _ => rfl) t {} prev buf ht (Nat.le_refl _)
  unfold finishMessage
  cases hu : Unmarshal t prev buf with
  | err e r => simp
  | panic => exact absurd hu this
  | ok v rest => simp only; split <;> simp

/-! ## The dispatch -/

theorem um_0 (buf : Bytes) : UnmarshalMessage 0 buf = finishMessage versionTy versionTy.zero .version buf := rfl
theorem um_1 (buf : Bytes) : UnmarshalMessage 1 buf = finishMessage invTy (newInv 1) .inv buf := rfl
theorem um_2 (buf : Bytes) : UnmarshalMessage 2 buf = finishMessage invTy (newInv 2) .inv buf := rfl
theorem um_3 (buf : Bytes) : UnmarshalMessage 3 buf = finishMessage invTy (newInv 3) .inv buf := rfl
theorem um_4 (buf : Bytes) : UnmarshalMessage 4 buf = finishMessage invTy (newInv 4) .inv buf := rfl
theorem um_5 (buf : Bytes) : UnmarshalMessage 5 buf = finishMessage getBlocksTy getBlocksTy.zero .getBlocks buf := rfl
theorem um_6 (buf : Bytes) : UnmarshalMessage 6 buf = finishMessage blockMsgTy blockMsgTy.zero .block buf := rfl
theorem um_7 (buf : Bytes) : UnmarshalMessage 7 buf = finishMessage headMsgTy headMsgTy.zero .header buf := rfl
theorem um_8 (buf : Bytes) : UnmarshalMessage 8 buf = finishMessage txMsgTy txMsgTy.zero .tx buf := rfl
theorem um_9 (buf : Bytes) : UnmarshalMessage 9 buf = .panic := rfl
theorem um_20 (buf : Bytes) : UnmarshalMessage 20 buf = finishMessage addrTy addrTy.zero .addr buf := rfl
theorem um_21 (buf : Bytes) : UnmarshalMessage 21 buf = finishMessage getAddrTy getAddrTy.zero .getAddr buf := rfl
theorem um_22 (buf : Bytes) : UnmarshalMessage 22 buf = finishMessage (.custom ping) ⟨0, false⟩ .ping buf := rfl
theorem um_23 (buf : Bytes) : UnmarshalMessage 23 buf = finishMessage (.custom ping) ⟨0, true⟩ .ping buf := rfl
theorem um_40 (buf : Bytes) : UnmarshalMessage 40 buf = .panic := rfl
theorem um_60 (buf : Bytes) : UnmarshalMessage 60 buf = .panic := rfl
theorem um_61 (buf : Bytes) : UnmarshalMessage 61 buf = finishMessage headMsgTy headMsgTy.zero .head buf := rfl
theorem um_90 (buf : Bytes) : UnmarshalMessage 90 buf = finishMessage verAckTy verAckTy.zero .verAck buf := rfl

/-- The type numbers the dispatch knows. -/
def knownTypes : List UInt64 := [0, 1, 2, 3, 4, 5, 6, 7, 8, 9, 20, 21, 22, 23, 40, 60, 61, 90]

theorem um_cases (t : UInt64) (buf : Bytes) : t ∈ knownTypes ∨ UnmarshalMessage t buf = .err (.unknownMessage t) := by
  by_cases h : t ∈ knownTypes
  · exact Or.inl h
  · right
    simp only [knownTypes, List.mem_cons, List.not_mem_nil, or_false, not_or] at h
    obtain ⟨h1, h2, h3, h4, h5, h6, h7, h8, h9, h10, h11, h12, h13, h14, h15, h16, h17, h18⟩ := h
    unfold UnmarshalMessage
    rw [if_neg h1, if_neg h2, if_neg h3, if_neg h4, if_neg h5, if_neg h6, if_neg h7, if_neg h8, if_neg h9, if_neg h10,
      if_neg h11, if_neg h12, if_neg h13, if_neg h14, if_neg h15, if_neg h16, if_neg h17, if_neg h18]

/-! ## Message types -/

theorem getBlocks_good : Good getBlocksTy := by simp [getBlocksTy, Good, GoodFields, minSize]
theorem headMsg_good : Good headMsgTy := by
  simp only [headMsgTy, Good, GoodFields]; exact ⟨header_good, trivial⟩
theorem addr_good : Good addrTy := by
  simp only [addrTy, Good, GoodFields]; exact ⟨⟨peerAddress_lawful, Nat.le_refl 1⟩, trivial⟩
theorem getAddr_good : Good getAddrTy := by simp [getAddrTy, Good, GoodFields]
theorem verAck_good : Good verAckTy := by simp [verAckTy, Good, GoodFields]
theorem txMsg_good : Good txMsgTy := by
  simp only [txMsgTy, Good, GoodFields]; exact ⟨wrapTx_lawful, trivial⟩

theorem getBlocks_safe : Safe getBlocksTy := by simp [getBlocksTy, Safe, SafeFields]
theorem headMsg_safe : Safe headMsgTy := by
  simp only [headMsgTy, Safe, SafeFields]; exact ⟨by simp, header_safe, trivial⟩
theorem addr_safe : Safe addrTy := by
  simp only [addrTy, Safe, SafeFields]; exact ⟨by simp, lawful_safe peerAddress_lawful, trivial⟩
theorem getAddr_safe : Safe getAddrTy := by simp [getAddrTy, Safe, SafeFields]
theorem verAck_safe : Safe verAckTy := by simp [verAckTy, Safe, SafeFields]
theorem txMsg_safe : Safe txMsgTy := by
  simp only [txMsgTy, Safe, SafeFields]; exact ⟨by simp, lawful_safe wrapTx_lawful, trivial⟩
theorem version_safe : Safe versionTy := by
  simp only [versionTy, Safe, SafeFields]
  exact ⟨by simp, trivial, by simp, lawful_safe peerAddress_lawful, by simp, trivial, by simp, trivial, by simp, trivial,
    by simp, trivial, trivial⟩
theorem inv_safe : Safe invTy := by simp [invTy, Safe, SafeFields]
theorem ping_safe : Safe (.custom ping) := by
  simp only [Safe]
  intro prev d
  simp only [ping]
  split
  · simp
  · simp; omega

/-- Inv messages can never be decoded: the vectors have no length tag. -/
theorem inv_fails (prev : invTy.Val) (buf : Bytes) : ∃ e r, Unmarshal invTy prev buf = .err e r := by
  simp only [Unmarshal, invTy, decode, decodeFields, fieldTags_none]
  cases pop NumKind.u64.size buf with
  | none => exact ⟨_, _, rfl⟩
  | some p => exact ⟨_, _, rfl⟩

/-- Version messages can never be decoded: they contain a peer address. -/
theorem version_fails (prev : versionTy.Val) (buf : Bytes) : ∃ e r, Unmarshal versionTy prev buf = .err e r := by
  simp only [Unmarshal, versionTy, decode, decodeFields, fieldTags_none]
  cases pop NumKind.u32.size buf with
  | none => exact ⟨_, _, rfl⟩
  | some p =>
    obtain ⟨a, d⟩ := p
    obtain ⟨e, he⟩ := peerAddress_dec_fails prev.2.1 d
    have he' : peerAddress.dec prev.2.1 d = .err e := he
    simp only [runCustom, he', Res.map]
    exact ⟨_, _, rfl⟩

/-! ## Which messages MarshalMessage accepts -/

/-- Messages that `MarshalMessage` can encode. -/
def Sendable : Msg → Prop
  | .getBlocks _ | .header _ | .getAddr _ | .head _ | .verAck _ | .getTxReceipts _ => True
  | .addr v => v.1 = []
  | _ => False

theorem marshalMessage_ptr {m : Msg} {t : Ty} {v : t.Val} (hm : m.arg = .pointer t (some v)) {n : Nat}
    (hs : Size t v = .ok n) : MarshalMessage m = Marshal (putBE 8 m.type.toNat) t v := by
  unfold MarshalMessage
  rw [hm]
  simp only [sizeArg, hs, marshalArg, Marshal]

theorem marshalMessage_err {m : Msg} {t : Ty} {v : t.Val} (hm : m.arg = .pointer t (some v)) {e : Err}
    (hs : Size t v = .err e) : MarshalMessage m = .err e := by
  unfold MarshalMessage
  rw [hm]
  simp only [sizeArg, hs]

theorem foldl_sizes (l : List (BArr 32)) : ∀ n, ∃ k, l.foldlM (fun total x => do
    return total + (← valueSize (.byteArr 32) x {})) n = Out.ok k := by
  induction l with
  | nil => intro n; exact ⟨n, rfl⟩
  | cons x l ih =>
    intro n
    rw [List.foldlM_cons]
    simp only [valueSize, Out.bind_ok, Out.pure_eq]
    exact ih _

theorem getBlocks_size (v : getBlocksTy.Val) : ∃ n, Size getBlocksTy v = .ok n := by
  obtain ⟨k, hk⟩ := foldl_sizes v.1 2
  refine ⟨0 + k + 2 + 1, ?_⟩
  simp only [valueSize] at hk
  simp only [Size, getBlocksTy, valueSize, fieldsSize, fieldTags_u16, fieldTags_none, Ty.numSize, LenKind.size, hk,
    NumKind.size]

/-- The encoding of a message's fields, if all lengths fit. -/
theorem getBlocks_enc (v : getBlocksTy.Val) (h : v.1.length ≤ 65535) : ∃ bs, enc getBlocksTy {} v = some bs := by
  refine (C29_encodable_values getBlocksTy ?_ v).mpr ⟨?_, ?_⟩
  · simp [getBlocksTy, Wf, WfFields]
  · simp [getBlocksTy, Encodable, EncodableFields]
  · simp [getBlocksTy, Fits, FitsFields, maxLen, h]

theorem header_enc (v : headMsgTy.Val) : ∃ bs, enc headMsgTy {} v = some bs := by
  simp only [headMsgTy, headerTy, enc, encFields, fieldTags_none]; exact ⟨_, rfl⟩
theorem getAddr_enc (v : getAddrTy.Val) : ∃ bs, enc getAddrTy {} v = some bs := by
  simp only [getAddrTy, enc, encFields, fieldTags_none]; exact ⟨_, rfl⟩
theorem verAck_enc (v : verAckTy.Val) : ∃ bs, enc verAckTy {} v = some bs := by
  simp only [verAckTy, enc, encFields, fieldTags_none]; exact ⟨_, rfl⟩
theorem receipts_enc (v : getTxReceiptsTy.Val) : ∃ bs, enc getTxReceiptsTy {} v = some bs := by
  simp only [getTxReceiptsTy, enc, encFields, fieldTags_none]; exact ⟨_, rfl⟩
theorem receipts_good : Good getTxReceiptsTy := by simp [getTxReceiptsTy, Good, GoodFields]
theorem headMsg_plain : Plain headMsgTy := by simp [headMsgTy, headerTy, Plain, PlainFields]
theorem getAddr_plain : Plain getAddrTy := by simp [getAddrTy, Plain, PlainFields]
theorem verAck_plain : Plain verAckTy := by simp [verAckTy, Plain, PlainFields]
theorem receipts_plain : Plain getTxReceiptsTy := by simp [getTxReceiptsTy, Plain, PlainFields]
theorem getBlocks_plain : Plain getBlocksTy := by simp [getBlocksTy, Plain, PlainFields]

theorem send_good {m : Msg} {t : Ty} {v : t.Val} (hm : m.arg = .pointer t (some v)) (hp : Plain t) (hg : Good t)
    {bs : Bytes} (h : enc t {} v = some bs) : MarshalMessage m = .ok (putBE 8 m.type.toNat ++ bs) := by
  rw [marshalMessage_ptr hm (C32_size_complete_partial t hp v bs h)]
  exact marshal_spec t {} v bs _ hg h

theorem send_addr (v : addrTy.Val) (h : v.1 = []) : MarshalMessage (.addr v) = .ok (putBE 8 20 ++ [0, 0]) ∧
    enc addrTy {} v = some [0, 0] := by
  obtain ⟨l, u⟩ := v
  simp only at h
  subst h
  refine ⟨?_, ?_⟩
  · rw [marshalMessage_ptr (m := .addr ([], u)) (t := addrTy) (v := ([], u)) rfl (n := 2) (by
      simp only [Size, addrTy, valueSize, fieldsSize, fieldTags_u16, Ty.numSize]; rfl)]
    simp only [Marshal, addrTy, marshal, marshalFields, fieldTags_u16]; rfl
  · simp only [addrTy, enc, encFields, fieldTags_u16]
    decide

theorem addr_size_err (x : (Ty.custom peerAddress).Val) (l : List (Ty.custom peerAddress).Val) (u : Unit) :
    Size addrTy ((x :: l, u) : addrTy.Val) = .err .noLenTag := by
  simp only [Size, addrTy]
  rw [valueSize]
  simp only [fieldsSize, fieldTags_u16]
  rw [valueSize]
  simp only [Ty.numSize]
  rw [List.foldlM_cons]
  simp only [valueSize, peerAddress, Out.bind_err]

/-- C42, sending: what can be sent. -/
theorem C42_sendable_partial (m : Msg) : (∃ b, MarshalMessage m = .ok b) ↔ Sendable m := by
  cases m with
  | version v =>
    simp only [Sendable, iff_false]
    rintro ⟨b, hb⟩
    rw [marshalMessage_err (m := .version v) rfl (e := .noLenTag) (by
      simp only [Size, versionTy, valueSize, fieldsSize, fieldTags_none, peerAddress])] at hb
    cases hb
  | inv v =>
    simp only [Sendable, iff_false]
    rintro ⟨b, hb⟩
    rw [marshalMessage_err (m := .inv v) rfl (e := .noLenTag) (by
      simp only [Size, invTy, valueSize, fieldsSize, fieldTags_none])] at hb
    cases hb
  | getBlocks v =>
    simp only [Sendable, iff_true]
    obtain ⟨n, hn⟩ := getBlocks_size v
    rw [marshalMessage_ptr (m := .getBlocks v) rfl hn]
    refine ((C34_reports_pointer_free getBlocksTy ?_ ?_ v _).1).mpr ?_
    · simp [getBlocksTy, Wf, WfFields]
    · simp [getBlocksTy, PtrFree, PtrFreeFields]
    · simp [getBlocksTy, Encodable, EncodableFields]
  | block v =>
    simp only [Sendable, iff_false]
    rintro ⟨b, hb⟩
    rw [marshalMessage_err (m := .block v) rfl (e := .noLenTag) (by
      simp only [Size, blockMsgTy, blockTy, headerTy, valueSize, fieldsSize, fieldTags_none, interlink])] at hb
    cases hb
  | header v =>
    obtain ⟨bs, hbs⟩ := header_enc v
    exact ⟨fun _ => trivial, fun _ => ⟨_, send_good (m := .header v) rfl headMsg_plain headMsg_good hbs⟩⟩
  | tx v =>
    simp only [Sendable, iff_false]
    rintro ⟨b, hb⟩
    rw [marshalMessage_err (m := .tx v) rfl (e := .cannotMarshal) (by
      simp only [Size, txMsgTy, valueSize, fieldsSize, fieldTags_none, wrapTx])] at hb
    cases hb
  | empty t =>
    simp only [Sendable, iff_false]
    rintro ⟨b, hb⟩
    simp [MarshalMessage, Msg.arg, sizeArg] at hb
  | addr v =>
    simp only [Sendable]
    constructor
    · rintro ⟨b, hb⟩
      obtain ⟨l, u⟩ := v
      cases l with
      | nil => rfl
      | cons x l =>
        rw [marshalMessage_err (m := .addr (x :: l, u)) rfl (addr_size_err x l u)] at hb
        cases hb
    · intro h; exact ⟨_, (send_addr v h).1⟩
  | getAddr v =>
    obtain ⟨bs, hbs⟩ := getAddr_enc v
    exact ⟨fun _ => trivial, fun _ => ⟨_, send_good (m := .getAddr v) rfl getAddr_plain getAddr_good hbs⟩⟩
  | ping v =>
    simp only [Sendable, iff_false]
    rintro ⟨b, hb⟩
    rw [marshalMessage_err (m := .ping v) rfl (e := .cannotMarshal) (by
      simp only [Size, valueSize, ping])] at hb
    cases hb
  | head v =>
    obtain ⟨bs, hbs⟩ := header_enc v
    exact ⟨fun _ => trivial, fun _ => ⟨_, send_good (m := .head v) rfl headMsg_plain headMsg_good hbs⟩⟩
  | verAck v =>
    obtain ⟨bs, hbs⟩ := verAck_enc v
    exact ⟨fun _ => trivial, fun _ => ⟨_, send_good (m := .verAck v) rfl verAck_plain verAck_good hbs⟩⟩
  | getTxProof v =>
    simp only [Sendable, iff_false]
    rintro ⟨b, hb⟩
    rw [marshalMessage_err (m := .getTxProof v) rfl (e := .noLenTag) (by
      simp only [Size, getTxProofTy, valueSize, fieldsSize, fieldTags_none])] at hb
    cases hb
  | getTxReceipts v =>
    obtain ⟨bs, hbs⟩ := receipts_enc v
    exact ⟨fun _ => trivial, fun _ => ⟨_, send_good (m := .getTxReceipts v) rfl receipts_plain receipts_good hbs⟩⟩

/-- C42 is false for most kinds: no Version, Inv, GetData, GetHeader, NotFound, Block, Tx, Ping or Pong message and no Addr
message with an address can ever be sent, and Mempool, GetChainProof and GetHead panic. -/
theorem C42_violated :
    (∀ v, MarshalMessage (.version v) = .err .noLenTag) ∧ (∀ v, MarshalMessage (.inv v) = .err .noLenTag) ∧
    (∀ v, MarshalMessage (.block v) = .err .noLenTag) ∧ (∀ v, MarshalMessage (.tx v) = .err .cannotMarshal) ∧
    (∀ v, MarshalMessage (.ping v) = .err .cannotMarshal) ∧
    (∀ x l u, MarshalMessage (.addr (x :: l, u)) = .err .noLenTag) ∧ (∀ t, MarshalMessage (.empty t) = .panic) := by
  refine ⟨fun v => ?_, fun v => ?_, fun v => ?_, fun v => ?_, fun v => ?_, fun x l u => ?_, fun t => ?_⟩
  · exact marshalMessage_err (m := .version v) rfl (by
      simp only [Size, versionTy, valueSize, fieldsSize, fieldTags_none, peerAddress])
  · exact marshalMessage_err (m := .inv v) rfl (by simp only [Size, invTy, valueSize, fieldsSize, fieldTags_none])
  · exact marshalMessage_err (m := .block v) rfl (by
      simp only [Size, blockMsgTy, blockTy, headerTy, valueSize, fieldsSize, fieldTags_none, interlink])
  · exact marshalMessage_err (m := .tx v) rfl (by
      simp only [Size, txMsgTy, valueSize, fieldsSize, fieldTags_none, wrapTx])
  · exact marshalMessage_err (m := .ping v) rfl (by simp only [Size, valueSize, ping])
  · exact marshalMessage_err (m := .addr (x :: l, u)) rfl (addr_size_err x l u)
  · simp [MarshalMessage, Msg.arg, sizeArg]

/-- C42, receiving: only these ten types can be received at all. -/
theorem C42_receivable (t : UInt64) (buf : Bytes) (m : Msg) (h : UnmarshalMessage t buf = .ok m) :
    t ∈ [5, 6, 7, 8, 20, 21, 22, 23, 61, 90] := by
  rcases um_cases t buf with ht | ht
  · simp only [knownTypes, List.mem_cons, List.not_mem_nil, or_false] at ht
    have hinv : ∀ k, finishMessage invTy (newInv k) .inv buf ≠ .ok m := by
      intro k hk
      obtain ⟨v, r, hv, _⟩ := finish_inv hk
      obtain ⟨e, r', he⟩ := inv_fails (newInv k) buf
      rw [hv] at he; cases he
    rcases ht with rfl | rfl | rfl | rfl | rfl | rfl | rfl | rfl | rfl | rfl | rfl | rfl | rfl | rfl | rfl | rfl | rfl | rfl
    · rw [um_0] at h
      obtain ⟨v, r, hv, _⟩ := finish_inv h
      obtain ⟨e, r', he⟩ := version_fails versionTy.zero buf
      rw [hv] at he; cases he
    · rw [um_1] at h; exact absurd h (hinv 1)
    · rw [um_2] at h; exact absurd h (hinv 2)
    · rw [um_3] at h; exact absurd h (hinv 3)
    · rw [um_4] at h; exact absurd h (hinv 4)
    · decide
    · decide
    · decide
    · decide
    · rw [um_9] at h; cases h
    · decide
    · decide
    · decide
    · decide
    · rw [um_40] at h; cases h
    · rw [um_60] at h; cases h
    · decide
    · decide
  · rw [ht] at h; cases h

set_option maxRecDepth 4000 in
/-- C42, receiving, exactly: each of them can be, a message of zeros is received. -/
theorem C42_receivable_each (t : UInt64) : (∃ buf m, UnmarshalMessage t buf = .ok m) ↔
    t ∈ [5, 6, 7, 8, 20, 21, 22, 23, 61, 90] := by
  constructor
  · rintro ⟨buf, m, h⟩
    exact C42_receivable t buf m h
  · intro h
    simp only [List.mem_cons, List.not_mem_nil, or_false] at h
    rcases h with rfl | rfl | rfl | rfl | rfl | rfl | rfl | rfl | rfl | rfl
    · exact ⟨List.replicate 5 0, _, rfl⟩
    · exact ⟨List.replicate 148 0, _, rfl⟩
    · exact ⟨List.replicate 146 0, _, rfl⟩
    · exact ⟨List.replicate 138 0, _, rfl⟩
    · exact ⟨List.replicate 2 0, _, rfl⟩
    · exact ⟨List.replicate 7 0, _, rfl⟩
    · exact ⟨List.replicate 4 0, _, rfl⟩
    · exact ⟨List.replicate 4 0, _, rfl⟩
    · exact ⟨List.replicate 146 0, _, rfl⟩
    · exact ⟨List.replicate 96 0, _, rfl⟩

/-! ## C41 -/

theorem take_putBE (x : Nat) (bs : Bytes) : (putBE 8 x ++ bs).take 8 = digits 8 x ∧ (putBE 8 x ++ bs).drop 8 = bs :=
  ⟨by rw [List.take_left' (putBE_length _ _), putBE_eq_digits], List.drop_left' (putBE_length _ _)⟩

/-- Messages that survive: sendable, not a HeaderMessage or GetTxReceipts, block locators fit the 16 bit length. -/
def Faithful : Msg → Prop
  | .header _ | .getTxReceipts _ => False
  | .getBlocks v => v.1.length ≤ 65535
  | _ => True

/-- C41, for all messages but HeaderMessage, GetTxReceipts and GetBlocks with more than 65535 locators. -/
theorem C41_round_trip_partial (m : Msg) (b : Bytes) (h : MarshalMessage m = .ok b) (hf : Faithful m) :
    b.take 8 = digits 8 m.type.toNat ∧ UnmarshalMessage m.type (b.drop 8) = .ok m := by
  have hs := (C42_sendable_partial m).mp ⟨b, h⟩
  cases m with
  | version v => exact absurd hs (by simp [Sendable])
  | inv v => exact absurd hs (by simp [Sendable])
  | block v => exact absurd hs (by simp [Sendable])
  | tx v => exact absurd hs (by simp [Sendable])
  | empty t => exact absurd hs (by simp [Sendable])
  | ping v => exact absurd hs (by simp [Sendable])
  | getTxProof v => exact absurd hs (by simp [Sendable])
  | header v => exact absurd hf (by simp [Faithful])
  | getTxReceipts v => exact absurd hf (by simp [Faithful])
  | getBlocks v =>
    obtain ⟨bs, hbs⟩ := getBlocks_enc v hf
    rw [send_good (m := .getBlocks v) rfl getBlocks_plain getBlocks_good hbs] at h
    cases h
    obtain ⟨h1, h2⟩ := take_putBE (Msg.getBlocks v).type.toNat bs
    refine ⟨h1, ?_⟩
    rw [h2]
    simp only [Msg.type, um_5]
    exact finish_ok getBlocks_good _ _ hbs
  | addr v =>
    obtain ⟨ha, hbs⟩ := send_addr v hs
    rw [ha] at h
    cases h
    obtain ⟨h1, h2⟩ := take_putBE 20 [0, 0]
    refine ⟨h1, ?_⟩
    rw [h2]
    simp only [Msg.type, um_20]
    exact finish_ok addr_good _ _ hbs
  | getAddr v =>
    obtain ⟨bs, hbs⟩ := getAddr_enc v
    rw [send_good (m := .getAddr v) rfl getAddr_plain getAddr_good hbs] at h
    cases h
    obtain ⟨h1, h2⟩ := take_putBE (Msg.getAddr v).type.toNat bs
    refine ⟨h1, ?_⟩
    rw [h2]
    simp only [Msg.type, um_21]
    exact finish_ok getAddr_good _ _ hbs
  | head v =>
    obtain ⟨bs, hbs⟩ := header_enc v
    rw [send_good (m := .head v) rfl headMsg_plain headMsg_good hbs] at h
    cases h
    obtain ⟨h1, h2⟩ := take_putBE (Msg.head v).type.toNat bs
    refine ⟨h1, ?_⟩
    rw [h2]
    simp only [Msg.type, um_61]
    exact finish_ok headMsg_good _ _ hbs
  | verAck v =>
    obtain ⟨bs, hbs⟩ := verAck_enc v
    rw [send_good (m := .verAck v) rfl verAck_plain verAck_good hbs] at h
    cases h
    obtain ⟨h1, h2⟩ := take_putBE (Msg.verAck v).type.toNat bs
    refine ⟨h1, ?_⟩
    rw [h2]
    simp only [Msg.type, um_90]
    exact finish_ok verAck_good _ _ hbs

/-- C41 is false for every HeaderMessage: it is sent as a block and the receiver cannot decode it as one. -/
theorem C41_header_violated (v : headMsgTy.Val) : ∃ b, MarshalMessage (.header v) = .ok b ∧ (b.drop 8).length = 146 ∧
    UnmarshalMessage (Msg.header v).type (b.drop 8) = .err .eof := by
  obtain ⟨bs, hbs⟩ := header_enc v
  refine ⟨_, send_good (m := .header v) rfl headMsg_plain headMsg_good hbs, ?_⟩
  obtain ⟨h1, h2⟩ := take_putBE (Msg.header v).type.toNat bs
  rw [h2]
  have hu := decode_spec noLimit (fun _ => rfl) headMsgTy {} v headMsgTy.zero bs [] headMsg_good hbs
  have henc : enc headerTy {} v.1 = some bs := by
    simp only [headMsgTy, enc, encFields, fieldTags_none] at hbs
    rw [← hbs]
    simp
  have hlen : bs.length = 146 := by
    have hd := decode_spec noLimit (fun _ => rfl) headerTy {} v.1 headerTy.zero bs [] header_good henc
    rw [List.append_nil] at hd
    obtain ⟨f1, f2⟩ := decode_fixed noLimit headerTy 146 headerTy.zero {} bs header_fixed
    by_cases hl : bs.length < 146
    · obtain ⟨e, r, he⟩ := f2 hl
      rw [hd] at he; cases he
    · obtain ⟨w, hw⟩ := f1 (by omega)
      rw [hd] at hw
      simp only [Res.ok.injEq] at hw
      have := congrArg List.length hw.2
      rw [List.length_drop] at this
      simp at this
      omega
  refine ⟨hlen, ?_⟩
  have hd : ∀ prev, decode noLimit headerTy prev {} bs = .ok v.1 [] := fun prev => by
    have := decode_spec noLimit (fun _ => rfl) headerTy {} v.1 prev bs [] header_good henc
    rwa [List.append_nil] at this
  have : Unmarshal blockMsgTy blockMsgTy.zero bs = .err .eof [] := by
    simp only [Unmarshal, blockMsgTy, blockTy]
    rw [decode]
    simp only [decodeFields, fieldTags_none]
    rw [decode]
    simp only [decodeFields, fieldTags_none]
    rw [hd]
    rfl
  simp only [Msg.type, um_6]
  simp [finishMessage, this]

/-- C41 is false for every GetTxReceipts message: the receiver does not know its type. -/
theorem C41_receipts_violated (v : getTxReceiptsTy.Val) : ∃ b, MarshalMessage (.getTxReceipts v) = .ok b ∧
    UnmarshalMessage (Msg.getTxReceipts v).type (b.drop 8) = .err (.unknownMessage 49) := by
  obtain ⟨bs, hbs⟩ := receipts_enc v
  exact ⟨_, send_good (m := .getTxReceipts v) rfl receipts_plain receipts_good hbs, by simp [UnmarshalMessage, Msg.type]⟩

example (v : verAckTy.Val) : (∃ b, MarshalMessage (.verAck v) = .ok b) ∧ Faithful (.verAck v) :=
  ⟨(C42_sendable_partial _).mpr trivial, trivial⟩

/-! ## C43 -/

theorem block_panics (prev : blockTy.Val) (ts : Tags) (buf : Bytes) : decode noLimit blockTy prev ts buf = .panic ↔
    ∃ x : UInt8, buf[146]? = some x ∧ 249 ≤ x.toNat := by
  obtain ⟨prevH, prevI, prevB, u⟩ := prev
  obtain ⟨f1, f2⟩ := decode_fixed noLimit headerTy 146 prevH {} buf header_fixed
  simp only [blockTy]
  rw [decode]
  simp only [decodeFields, fieldTags_none, fieldTags_optional]
  by_cases hl : buf.length < 146
  · obtain ⟨e, r, he⟩ := f2 hl
    rw [he]
    simp only [reduceCtorEq, false_iff, not_exists, not_and]
    intro x hx
    rw [List.getElem?_eq_none (by omega)] at hx
    cases hx
  · obtain ⟨w, hw⟩ := f1 (by omega)
    rw [hw]
    simp only
    rw [decode]
    have hi := interlink_dec prevI (buf.drop 146)
    have hi' : interlink.dec prevI (buf.drop 146) = _ := hi
    rw [runCustom, hi']
    have hget : buf[146]? = (buf.drop 146)[0]? := by rw [List.getElem?_drop]
    rw [hget]
    cases hb : buf.drop 146 with
    | nil => simp [BitSet.dec, Res.map]
    | cons x d =>
      have hbs : Safe (.ptr bodyTy) := by simp only [Safe]; exact ⟨body_safe, rfl⟩
      have hbody : ∀ d', decode noLimit (.ptr bodyTy) prevB { optional := true } d' ≠ .panic := fun d' =>
        decode_ne_panic noLimit d'.length (fun _ _ => rfl) (.ptr bodyTy) _ prevB d' hbs (Nat.le_refl _)
      have hx : (x :: d)[0]? = some x := rfl
      rw [hx]
      by_cases h249 : 249 ≤ x.toNat
      · obtain ⟨hd, _⟩ := C46_violated x h249 d
        rw [hd]
        simp [h249, Res.map]
      · have hno : ¬ ∃ y : UInt8, some x = some y ∧ 249 ≤ y.toNat := by
          rintro ⟨y, hy, hy'⟩; cases hy; exact h249 hy'
        simp only [hno, iff_false]
        cases hd : BitSet.dec (x :: d) with
        | err e => simp [Res.map]
        | panic => exact absurd hd (BitSet.dec_ne_panic _)
        | ok p =>
          obtain ⟨n, r⟩ := p
          obtain ⟨hs1, hn, rest, hr⟩ := BitSet.dec_ok hd
          have hrx : r.len = x := by
            have := congrArg List.head? hr
            simp at this; exact this.symm
          simp only
          rw [if_neg (by rw [hrx]; exact h249)]
          by_cases hle : ((x :: d).drop n).length < 32 * r.list.count false
          · rw [if_pos hle]; simp [Res.map]
          · rw [if_neg hle]
            simp only
            rw [if_neg (by
                rw [List.length_drop] at hle
                have : n ≤ (x :: d).length := by rw [hr, hn]; simp; omega
                omega)]
            simp only
            cases hu : decode noLimit (.ptr bodyTy) prevB { optional := true }
                  ((x :: d).drop (n + 32 * r.list.count false)) with
            | ok a b => simp [Res.map]
            | err e b => simp [Res.map]
            | panic => exact absurd hu (hbody _)

theorem blockMsg_panics (prev : blockMsgTy.Val) (buf : Bytes) : finishMessage blockMsgTy prev .block buf = .panic ↔
    ∃ x : UInt8, buf[146]? = some x ∧ 249 ≤ x.toNat := by
  obtain ⟨p, u⟩ := prev
  rw [← block_panics p {} buf]
  have : Unmarshal blockMsgTy (p, u) buf = (decode noLimit blockTy p {} buf).map fun v => (v, ()) := by
    simp only [Unmarshal, blockMsgTy]
    rw [decode]
    simp only [decodeFields, fieldTags_none]
    cases decode noLimit blockTy p {} buf <;> rfl
  unfold finishMessage
  rw [this]
  cases decode noLimit blockTy p {} buf with
  | ok v r => simp only [Res.map]; split <;> simp
  | err e r => simp [Res.map]
  | panic => simp [Res.map]

/-- C43, exactly which inputs crash the node: Mempool, GetChainProof and GetHead always, Block messages whose 147th byte is
at least 249. -/
theorem C43_panics_iff_violated (t : UInt64) (buf : Bytes) : UnmarshalMessage t buf = .panic ↔
    t = 9 ∨ t = 40 ∨ t = 60 ∨ (t = 6 ∧ ∃ x : UInt8, buf[146]? = some x ∧ 249 ≤ x.toNat) := by
  rcases um_cases t buf with ht | ht
  · simp only [knownTypes, List.mem_cons, List.not_mem_nil, or_false] at ht
    rcases ht with rfl | rfl | rfl | rfl | rfl | rfl | rfl | rfl | rfl | rfl | rfl | rfl | rfl | rfl | rfl | rfl | rfl | rfl
    · simp [um_0, finish_ne_panic version_safe]
    · simp [um_1, finish_ne_panic inv_safe]
    · simp [um_2, finish_ne_panic inv_safe]
    · simp [um_3, finish_ne_panic inv_safe]
    · simp [um_4, finish_ne_panic inv_safe]
    · simp [um_5, finish_ne_panic getBlocks_safe]
    · simp [um_6, blockMsg_panics]
    · simp [um_7, finish_ne_panic headMsg_safe]
    · simp [um_8, finish_ne_panic txMsg_safe]
    · simp [um_9]
    · simp [um_20, finish_ne_panic addr_safe]
    · simp [um_21, finish_ne_panic getAddr_safe]
    · have hp := finish_ne_panic ping_safe (⟨0, false⟩ : Ping) .ping buf
      simp only [um_22]
      exact ⟨fun h => absurd h hp, fun h => by simp at h⟩
    · have hp := finish_ne_panic ping_safe (⟨0, true⟩ : Ping) .ping buf
      simp only [um_23]
      exact ⟨fun h => absurd h hp, fun h => by simp at h⟩
    · simp [um_40]
    · simp [um_60]
    · simp [um_61, finish_ne_panic headMsg_safe]
    · simp [um_90, finish_ne_panic verAck_safe]
  · rw [ht]
    simp only [reduceCtorEq, false_iff]
    rintro (rfl | rfl | rfl | ⟨rfl, _⟩)
    · rw [um_9] at ht; cases ht
    · rw [um_40] at ht; cases ht
    · rw [um_60] at ht; cases ht
    · rename_i x
      rw [um_6, finishMessage_eq] at ht
      cases hu : UnmarshalFull blockMsgTy blockMsgTy.zero buf with
      | ok v => rw [hu] at ht; cases ht
      | panic => rw [hu] at ht; cases ht
      | err e =>
        rw [hu] at ht
        obtain ⟨y, hy, hy'⟩ := x
        have := (blockMsg_panics blockMsgTy.zero buf).mpr ⟨y, hy, hy'⟩
        rw [finishMessage_eq, hu] at this
        cases this

/-- C43, the true part: no other type number and no block with at most 248 interlink bits crashes. -/
theorem C43_no_panic_partial (t : UInt64) (buf : Bytes) (h : t ∉ [9, 40, 60])
    (hb : t = 6 → ∀ x : UInt8, buf[146]? = some x → x.toNat ≤ 248) : UnmarshalMessage t buf ≠ .panic := by
  intro hp
  rcases (C43_panics_iff_violated t buf).mp hp with h9 | h40 | h60 | ⟨h6, x, hx, hx'⟩
  · exact h (by simp [h9])
  · exact h (by simp [h40])
  · exact h (by simp [h60])
  · have := hb h6 x hx; omega

/-! ## C44 -/

/-- C44, for every type but 7; there the received message claims to be of type 6. -/
theorem C44_type_partial (t : UInt64) (buf : Bytes) (m : Msg) (h : UnmarshalMessage t buf = .ok m) :
    (t ≠ 7 → m.type = t) ∧ (t = 7 → m.type = 6) := by
  have hr := C42_receivable t buf m h
  simp only [List.mem_cons, List.not_mem_nil, or_false] at hr
  have hping : ∀ pong v r, Unmarshal (.custom ping) ⟨0, pong⟩ buf = .ok v r → v.pong = pong := by
    intro pong v r hv
    have e : ping.dec ⟨0, pong⟩ buf = if buf.length < 4 then .err .eof else
        .ok (4, ⟨UInt32.ofNat (getBE (buf.take 4)), pong⟩) := rfl
    simp only [Unmarshal, decode, runCustom, e] at hv
    by_cases hl : buf.length < 4
    · rw [if_pos hl] at hv; cases hv
    · rw [if_neg hl] at hv
      simp only at hv
      rw [if_neg (by omega)] at hv
      cases hv; rfl
  rcases hr with rfl | rfl | rfl | rfl | rfl | rfl | rfl | rfl | rfl | rfl
  · rw [um_5] at h; obtain ⟨v, r, hv, rfl⟩ := finish_inv h; exact ⟨fun _ => rfl, fun h => absurd h (by decide)⟩
  · rw [um_6] at h; obtain ⟨v, r, hv, rfl⟩ := finish_inv h; exact ⟨fun _ => rfl, fun h => absurd h (by decide)⟩
  · rw [um_7] at h; obtain ⟨v, r, hv, rfl⟩ := finish_inv h; exact ⟨fun h => absurd rfl h, fun _ => rfl⟩
  · rw [um_8] at h; obtain ⟨v, r, hv, rfl⟩ := finish_inv h; exact ⟨fun _ => rfl, fun h => absurd h (by decide)⟩
  · rw [um_20] at h; obtain ⟨v, r, hv, rfl⟩ := finish_inv h; exact ⟨fun _ => rfl, fun h => absurd h (by decide)⟩
  · rw [um_21] at h; obtain ⟨v, r, hv, rfl⟩ := finish_inv h; exact ⟨fun _ => rfl, fun h => absurd h (by decide)⟩
  · rw [um_22] at h; obtain ⟨v, r, hv, rfl⟩ := finish_inv h
    exact ⟨fun _ => by simp [Msg.type, hping false v r hv], fun h => absurd h (by decide)⟩
  · rw [um_23] at h; obtain ⟨v, r, hv, rfl⟩ := finish_inv h
    exact ⟨fun _ => by simp [Msg.type, hping true v r hv], fun h => absurd h (by decide)⟩
  · rw [um_61] at h; obtain ⟨v, r, hv, rfl⟩ := finish_inv h; exact ⟨fun _ => rfl, fun h => absurd h (by decide)⟩
  · rw [um_90] at h; obtain ⟨v, r, hv, rfl⟩ := finish_inv h; exact ⟨fun _ => rfl, fun h => absurd h (by decide)⟩

/-- A ping meets the hypothesis of C42 and C44. -/
example : ∃ m, UnmarshalMessage 22 [0, 0, 1, 2] = .ok m ∧ m.type = 22 := by
  obtain ⟨m, hm⟩ : ∃ m, UnmarshalMessage 22 [0, 0, 1, 2] = .ok m := ⟨_, rfl⟩
  exact ⟨m, hm, (C44_type_partial 22 _ m hm).1 (by decide)⟩

/-- C44 is false for type 7: every header that arrives is taken for a block message by whoever asks for its type. -/
theorem C44_violated (v : headMsgTy.Val) : ∃ buf m, UnmarshalMessage 7 buf = .ok m ∧ m = .header v ∧ m.type = 6 := by
  obtain ⟨bs, hbs⟩ := header_enc v
  refine ⟨bs, .header v, ?_, rfl, rfl⟩
  rw [um_7]
  exact finish_ok headMsg_good _ _ hbs

end Nimiq.Wire
