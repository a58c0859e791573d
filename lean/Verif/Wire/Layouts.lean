import Verif.Wire.Strict
/-!
# The byte layouts of the messages (C111)

For every message type the node accepts except blocks, the accepted buffers are exactly those of the documented layout
(big-endian numbers are `Spec.digits`), and every message the node can send is the eight byte type id followed by it.
-/
namespace Nimiq.Wire
open Beserial Beserial.Spec

/-! ## Layouts (specification) -/

/-- The fields of a block header. -/
structure HeaderFields where
  version : UInt16
  prevHash : Hash32
  interlinkHash : Hash32
  bodyHash : Hash32
  accountsHash : Hash32
  nBits : UInt32
  height : UInt32
  timestamp : UInt32
  nonce : UInt32

/-- What a block header looks like on the wire: 146 bytes. -/
def headerLayout (h : HeaderFields) : Bytes :=
  digits 2 h.version.toNat ++ h.prevHash.val ++ h.interlinkHash.val ++ h.bodyHash.val ++ h.accountsHash.val ++
    digits 4 h.nBits.toNat ++ digits 4 h.height.toNat ++ digits 4 h.timestamp.toNat ++ digits 4 h.nonce.toNat

/-- The header as a value of the Go struct `BlockHeader`. -/
def HeaderFields.hdr (h : HeaderFields) : headerTy.Val :=
  (h.version, h.prevHash, h.interlinkHash, h.bodyHash, h.accountsHash, h.nBits, h.height, h.timestamp, h.nonce, ())

/-- The header as a value of the Go structs `HeaderMessage` and `HeadMessage`. -/
def HeaderFields.val (h : HeaderFields) : headMsgTy.Val := (h.hdr, ())

/-- What a block request looks like: the number of locators, the locators, the largest answer, the direction. -/
def getBlocksLayout (locators : List (BArr 32)) (maxInv : UInt16) (direction : UInt8) : Bytes :=
  digits 2 locators.length ++ (locators.map (·.val)).flatten ++ digits 2 maxInv.toNat ++ digits 1 direction.toNat

/-! ## Encodings -/

theorem headerFields_surj (v : headMsgTy.Val) : ∃ h : HeaderFields, v = h.val := by
  obtain ⟨⟨a, b, c, d, e, f, g, h, i, u⟩, w⟩ := v
  exact ⟨⟨a, b, c, d, e, f, g, h, i⟩, rfl⟩

theorem headerHdr_surj (v : headerTy.Val) : ∃ h : HeaderFields, v = h.hdr := by
  obtain ⟨a, b, c, d, e, f, g, h, i, u⟩ := v
  exact ⟨⟨a, b, c, d, e, f, g, h, i⟩, rfl⟩

theorem header_layout_enc (h : HeaderFields) : enc headMsgTy {} h.val = some (headerLayout h) := by
  simp [headMsgTy, headerTy, HeaderFields.val, HeaderFields.hdr, enc, encFields, fieldTags_none, Spec.num, headerLayout]

theorem all_arr (n : Nat) (l : List (BArr n)) : all (fun x : BArr n => some x.val) l = some ((l.map (·.val)).flatten) := by
  induction l with
  | nil => rfl
  | cons x l ih =>
    simp only [all, ih, Option.bind_eq_bind, Option.bind_some, Option.pure_def, List.map_cons, List.flatten_cons]

theorem getBlocks_layout_enc (l : List (BArr 32)) (m : UInt16) (d : UInt8) (u : Unit) (h : l.length < 65536) :
    enc getBlocksTy {} ((l, m, d, u) : getBlocksTy.Val) = some (getBlocksLayout l m d) := by
  have h1 : l.length ≤ maxLen .u16 := by simp only [maxLen]; omega
  have ha := all_arr 32 l
  simp only [getBlocksTy, enc, encFields, fieldTags_none, fieldTags_u16, Option.bind_eq_bind, Option.bind_some, Spec.num, Spec.len,
    h1, if_true]
  rw [ha]
  simp [getBlocksLayout, LenKind.size]

theorem getBlocks_fits {v : getBlocksTy.Val} {bs : Bytes} (h : enc getBlocksTy {} v = some bs) : v.1.length < 65536 := by
  obtain ⟨l, m, d, u⟩ := v
  apply Classical.byContradiction
  intro hn
  have h1 : ¬ l.length ≤ maxLen .u16 := by simp only [maxLen]; simp only at hn; omega
  simp [getBlocksTy, enc, encFields, fieldTags_u16, Spec.len, h1] at h

/-- Receiving, in terms of the specified encoding. -/
theorem receive_iff {t : Ty} (ht : Good t) (prev : t.Val) (mk : t.Val → Msg) (buf : Bytes) (m : Msg) :
    finishMessage t prev mk buf = .ok m ↔ ∃ v, m = mk v ∧ enc t {} v = some buf :=
  ⟨finish_canon ht, fun ⟨_, hm, hv⟩ => hm ▸ finish_ok ht prev mk hv⟩

/-! ## C111, receiving -/

/-- C111. A GetBlocks message (type 5). -/
theorem C111_receive_getBlocks (buf : Bytes) (m : Msg) : UnmarshalMessage 5 buf = .ok m ↔
    ∃ (locators : List (BArr 32)) (maxInv : UInt16) (direction : UInt8), locators.length < 65536 ∧
      buf = digits 2 locators.length ++ (locators.map (·.val)).flatten ++ digits 2 maxInv.toNat ++ digits 1 direction.toNat ∧
      m = .getBlocks (locators, maxInv, direction, ()) := by
  rw [um_5, receive_iff getBlocks_good]
  constructor
  · rintro ⟨v, rfl, hv⟩
    have hl := getBlocks_fits hv
    obtain ⟨l, mi, d, u⟩ := v
    rw [getBlocks_layout_enc l mi d u hl] at hv
    exact ⟨l, mi, d, hl, (Option.some.inj hv).symm, rfl⟩
  · rintro ⟨l, mi, d, hl, rfl, rfl⟩
    exact ⟨_, rfl, getBlocks_layout_enc l mi d () hl⟩

/-- C111. A header (type 7) and the chain head (type 61). -/
theorem C111_receive_header (buf : Bytes) (m : Msg) :
    (UnmarshalMessage 7 buf = .ok m ↔ ∃ h : HeaderFields, buf = headerLayout h ∧ m = .header h.val) ∧
    (UnmarshalMessage 61 buf = .ok m ↔ ∃ h : HeaderFields, buf = headerLayout h ∧ m = .head h.val) := by
  rw [um_7, um_61, receive_iff headMsg_good, receive_iff headMsg_good]
  refine ⟨⟨?_, ?_⟩, ⟨?_, ?_⟩⟩
  · rintro ⟨v, rfl, hv⟩
    obtain ⟨h, rfl⟩ := headerFields_surj v
    rw [header_layout_enc] at hv
    exact ⟨h, (Option.some.inj hv).symm, rfl⟩
  · rintro ⟨h, rfl, rfl⟩
    exact ⟨_, rfl, header_layout_enc h⟩
  · rintro ⟨v, rfl, hv⟩
    obtain ⟨h, rfl⟩ := headerFields_surj v
    rw [header_layout_enc] at hv
    exact ⟨h, (Option.some.inj hv).symm, rfl⟩
  · rintro ⟨h, rfl, rfl⟩
    exact ⟨_, rfl, header_layout_enc h⟩

/-- C111. A transaction (type 8). -/
theorem C111_receive_tx (buf : Bytes) (m : Msg) : UnmarshalMessage 8 buf = .ok m ↔
    ∃ tx : Tx, txFits tx ∧ buf = txLayout tx ∧ m = .tx (some tx, ()) := by
  rw [um_8, receive_iff txMsg_good]
  have he : ∀ w : Option Tx, enc txMsgTy {} ((w, ()) : txMsgTy.Val) = wrapTx.spec w := by
    intro w
    simp only [txMsgTy, enc, encFields, fieldTags_none, Option.bind_eq_bind, Option.bind_some, Option.pure_def, List.append_nil]
    cases wrapTx.spec w <;> rfl
  constructor
  · rintro ⟨⟨w, u⟩, rfl, hv⟩
    have hv := (he w).symm.trans hv
    cases w with
    | none => cases hv
    | some tx =>
      by_cases hf : txFits tx
      · rw [wrapTx_spec_some tx hf] at hv
        exact ⟨tx, hf, (Option.some.inj hv).symm, rfl⟩
      · rw [wrapTx_spec_none tx hf] at hv
        cases hv
  · rintro ⟨tx, hf, rfl, rfl⟩
    exact ⟨_, rfl, (he _).trans (wrapTx_spec_some tx hf)⟩

/-- C111. An address list (type 20): only the empty one. -/
theorem C111_receive_addr (buf : Bytes) (m : Msg) : UnmarshalMessage 20 buf = .ok m ↔ buf = [0, 0] ∧ m = .addr ([], ()) := by
  rw [um_20, receive_iff addr_good]
  constructor
  · rintro ⟨v, rfl, hv⟩
    have hnil : v.1 = [] := by
      obtain ⟨l, u⟩ := v
      cases l with
      | nil => rfl
      | cons x l =>
        simp only [addrTy] at hv
        rw [enc] at hv
        simp only [encFields, fieldTags_u16, Option.bind_eq_bind, Option.bind_some] at hv
        rw [enc] at hv
        have hx : all (fun x => enc (.custom peerAddress) {} x) (x :: l) = none := by
          simp only [all]
          rw [enc]
          rfl
        rw [hx] at hv
        cases hlen : Spec.len { lenTag := some .u16 } (x :: l).length with
        | none => simp [hlen] at hv
        | some b => simp [hlen] at hv
    have := (send_addr v hnil).2
    rw [this] at hv
    obtain ⟨l, u⟩ := v
    simp only at hnil
    subst hnil
    exact ⟨(Option.some.inj hv).symm, rfl⟩
  · rintro ⟨rfl, rfl⟩
    exact ⟨_, rfl, (send_addr ([], ()) rfl).2⟩

theorem getAddr_layout_enc (p : UInt8) (s : UInt32) (n : UInt16) (u : Unit) :
    enc getAddrTy {} ((p, s, n, u) : getAddrTy.Val) = some (digits 1 p.toNat ++ digits 4 s.toNat ++ digits 2 n.toNat) := by
  simp [getAddrTy, enc, encFields, fieldTags_none, Spec.num]

/-- C111. A request for addresses (type 21): protocol mask, service mask, largest answer. -/
theorem C111_receive_getAddr (buf : Bytes) (m : Msg) : UnmarshalMessage 21 buf = .ok m ↔
    ∃ (protocols : UInt8) (services : UInt32) (max : UInt16),
      buf = digits 1 protocols.toNat ++ digits 4 services.toNat ++ digits 2 max.toNat ∧
      m = .getAddr (protocols, services, max, ()) := by
  rw [um_21, receive_iff getAddr_good]
  constructor
  · rintro ⟨⟨p, s, n, u⟩, rfl, hv⟩
    rw [getAddr_layout_enc] at hv
    exact ⟨p, s, n, (Option.some.inj hv).symm, rfl⟩
  · rintro ⟨p, s, n, rfl, rfl⟩
    exact ⟨_, rfl, getAddr_layout_enc p s n ()⟩

/-- C111. A ping (type 22) and a pong (type 23): the nonce. -/
theorem C111_receive_ping (buf : Bytes) (m : Msg) :
    (UnmarshalMessage 22 buf = .ok m ↔ ∃ nonce : UInt32, buf = digits 4 nonce.toNat ∧ m = .ping ⟨nonce, false⟩) ∧
    (UnmarshalMessage 23 buf = .ok m ↔ ∃ nonce : UInt32, buf = digits 4 nonce.toNat ∧ m = .ping ⟨nonce, true⟩) := by
  have key : ∀ pong, finishMessage (.custom ping) (⟨0, pong⟩ : Ping) .ping buf = .ok m ↔
      ∃ nonce : UInt32, buf = digits 4 nonce.toNat ∧ m = .ping ⟨nonce, pong⟩ := by
    intro pong
    rw [ping_finish]
    constructor
    · intro h
      by_cases h1 : buf.length < 4
      · rw [if_pos h1] at h; cases h
      · rw [if_neg h1] at h
        by_cases h2 : buf.length = 4
        · rw [if_pos h2] at h
          cases h
          refine ⟨_, ?_, rfl⟩
          have hlt := getBE_lt buf
          rw [h2] at hlt
          rw [UInt32.toNat_ofNat', Nat.mod_eq_of_lt (by omega), ← putBE_eq_digits, putBE_getBE' h2]
        · rw [if_neg h2] at h; cases h
    · rintro ⟨nonce, rfl, rfl⟩
      have hl := digits_length 4 nonce.toNat
      rw [if_neg (by omega), if_pos hl, ← putBE_eq_digits, getBE_putBE, Nat.mod_eq_of_lt (by have := nonce.toNat_lt; omega)]
      simp
  rw [um_22, um_23]
  exact ⟨key false, key true⟩

theorem verAck_layout_enc (k : BArr 32) (s : BArr 64) (u : Unit) :
    enc verAckTy {} ((k, s, u) : verAckTy.Val) = some (k.val ++ s.val) := by
  simp [verAckTy, enc, encFields, fieldTags_none]

/-- C111. A version acknowledgement (type 90): public key and signature. -/
theorem C111_receive_verAck (buf : Bytes) (m : Msg) : UnmarshalMessage 90 buf = .ok m ↔
    ∃ (key : BArr 32) (signature : BArr 64), buf = key.val ++ signature.val ∧ m = .verAck (key, signature, ()) := by
  rw [um_90, receive_iff verAck_good]
  constructor
  · rintro ⟨⟨k, s, u⟩, rfl, hv⟩
    rw [verAck_layout_enc] at hv
    exact ⟨k, s, (Option.some.inj hv).symm, rfl⟩
  · rintro ⟨k, s, rfl, rfl⟩
    exact ⟨_, rfl, verAck_layout_enc k s ()⟩

/-! ## C111, sending -/

/-- C111. The type id of every message the package can build. -/
theorem C111_type_ids : (∀ v, (Msg.version v).type = 0) ∧ (∀ t l u, (Msg.inv (t, l, u)).type = t) ∧
    (∀ v, (Msg.getBlocks v).type = 5) ∧ (∀ v, (Msg.block v).type = 6) ∧ (∀ v, (Msg.tx v).type = 8) ∧
    (∀ v, (Msg.addr v).type = 20) ∧ (∀ v, (Msg.getAddr v).type = 21) ∧ (∀ n, (Msg.ping ⟨n, false⟩).type = 22) ∧
    (∀ n, (Msg.ping ⟨n, true⟩).type = 23) ∧ (∀ v, (Msg.getTxProof v).type = 47) ∧ (∀ v, (Msg.getTxReceipts v).type = 49) ∧
    (∀ v, (Msg.head v).type = 61) ∧ (∀ v, (Msg.verAck v).type = 90) ∧ ∀ t, (Msg.empty t).type = t :=
  ⟨fun _ => rfl, fun _ _ _ => rfl, fun _ => rfl, fun _ => rfl, fun _ => rfl, fun _ => rfl, fun _ => rfl, fun _ => rfl,
    fun _ => rfl, fun _ => rfl, fun _ => rfl, fun _ => rfl, fun _ => rfl, fun _ => rfl⟩

/-- C111. The bytes sent for every message that can be sent: the type id, then the fields. -/
theorem C111_send :
    (∀ (l : List (BArr 32)) (m : UInt16) (d : UInt8), l.length < 65536 →
      MarshalMessage (.getBlocks (l, m, d, ())) = .ok (digits 8 5 ++ (digits 2 l.length ++ (l.map (·.val)).flatten ++
        digits 2 m.toNat ++ digits 1 d.toNat))) ∧
    (∀ h : HeaderFields, MarshalMessage (.header h.val) = .ok (digits 8 6 ++ headerLayout h)) ∧
    (∀ h : HeaderFields, MarshalMessage (.head h.val) = .ok (digits 8 61 ++ headerLayout h)) ∧
    MarshalMessage (.addr ([], ())) = .ok (digits 8 20 ++ [0, 0]) ∧
    (∀ (p : UInt8) (s : UInt32) (n : UInt16), MarshalMessage (.getAddr (p, s, n, ())) =
      .ok (digits 8 21 ++ (digits 1 p.toNat ++ digits 4 s.toNat ++ digits 2 n.toNat))) ∧
    (∀ (k : BArr 32) (s : BArr 64), MarshalMessage (.verAck (k, s, ())) = .ok (digits 8 90 ++ (k.val ++ s.val))) ∧
    (∀ (a : BArr 20) (off : UInt32), MarshalMessage (.getTxReceipts (a, off, ())) =
      .ok (digits 8 49 ++ (a.val ++ digits 4 off.toNat))) := by
  refine ⟨?_, ?_, ?_, ?_, ?_, ?_, ?_⟩
  · intro l m d hl
    rw [send_good (m := .getBlocks (l, m, d, ())) rfl getBlocks_plain getBlocks_good (getBlocks_layout_enc l m d () hl),
      putBE_eq_digits]
    rfl
  · intro h
    rw [send_good (m := .header h.val) rfl headMsg_plain headMsg_good (header_layout_enc h), putBE_eq_digits]
    rfl
  · intro h
    rw [send_good (m := .head h.val) rfl headMsg_plain headMsg_good (header_layout_enc h), putBE_eq_digits]
    rfl
  · rw [(send_addr ([], ()) rfl).1, putBE_eq_digits]
  · intro p s n
    rw [send_good (m := .getAddr (p, s, n, ())) rfl getAddr_plain getAddr_good (getAddr_layout_enc p s n ()), putBE_eq_digits]
    rfl
  · intro k s
    rw [send_good (m := .verAck (k, s, ())) rfl verAck_plain verAck_good (verAck_layout_enc k s ()), putBE_eq_digits]
    rfl
  · intro a off
    have he : enc getTxReceiptsTy {} ((a, off, ()) : getTxReceiptsTy.Val) = some (a.val ++ digits 4 off.toNat) := by
      simp [getTxReceiptsTy, enc, encFields, fieldTags_none, Spec.num]
    rw [send_good (m := .getTxReceipts (a, off, ())) rfl receipts_plain receipts_good he, putBE_eq_digits]
    rfl

/-! ## C48: the errors -/

/-- C48. What the decoder of peer addresses reports, once the header can be read: an unknown protocol exactly for protocols
other than 0 (dumb), 1 (WSS) and 4 (WS); for these it fails later, at the detail. -/
theorem C48_error (prev : PeerAddress) (d rest : Bytes) (p : PeerAddressHeader)
    (h : Unmarshal PeerAddressHeader.ty prev.header.toVal d = .ok p.toVal rest) :
    PeerAddress.dec prev d = .err (if p.protocol ∈ [0, 1, 4] then .cannotMarshal else .badType p.protocol) := by
  unfold PeerAddress.dec
  rw [h]
  have hp : PeerAddressHeader.ofVal p.toVal = p := rfl
  simp only [hp, unmarshalAt, Unmarshal, detailTy, decode, List.mem_cons, List.not_mem_nil, or_false]
  by_cases h0 : p.protocol = 0
  · rw [if_pos h0, if_pos (Or.inl h0)]
  · rw [if_neg h0]
    by_cases h4 : p.protocol = 4 ∨ p.protocol = 1
    · rw [if_pos h4, if_pos (Or.inr h4.symm)]
    · rw [if_neg h4, if_neg (by rintro (h | h | h); exact h0 h; exact h4 (.inr h); exact h4 (.inl h))]

example : ∃ (d rest : Bytes) (p : PeerAddressHeader), p.protocol = 3 ∧ p.services = 5 ∧
    Unmarshal PeerAddressHeader.ty PeerAddressHeader.ty.zero d = .ok p.toVal rest := by
  obtain ⟨bs, _, h⟩ := C48_header_partial ⟨3, 5, 0, ⟨0, [1, 2, 3, 4]⟩, BArr.zero 32, 0, BArr.zero 64⟩ rfl rfl []
  exact ⟨_, _, _, rfl, rfl, h⟩

end Nimiq.Wire
