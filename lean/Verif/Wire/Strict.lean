import Verif.Wire.Messages
/-!
# Received messages are read completely (C75)
-/
namespace Nimiq.Wire
open Beserial Beserial.Spec

theorem finish_canon {t : Ty} (ht : Good t) {prev : t.Val} {mk : t.Val → Msg} {buf : Bytes} {m : Msg}
    (h : finishMessage t prev mk buf = .ok m) : ∃ v, m = mk v ∧ enc t {} v = some buf := by
  rw [finishMessage_eq] at h
  cases hu : UnmarshalFull t prev buf with
  | err e => rw [hu] at h; cases h
  | panic => rw [hu] at h; cases h
  | ok v =>
    rw [hu] at h
    cases h
    exact ⟨v, rfl, (C37_full_canonical t ht prev v buf).mp hu⟩

theorem finish_marshal {t : Ty} (ht : Good t) {prev : t.Val} {mk : t.Val → Msg} {buf : Bytes} {m : Msg}
    (hm : ∀ v, (mk v).arg = .pointer t (some v)) (h : finishMessage t prev mk buf = .ok m) : marshalArg [] m.arg = .ok buf := by
  obtain ⟨v, rfl, hv⟩ := finish_canon ht h
  rw [hm v]
  have := marshal_spec t {} v buf [] ht hv
  rwa [List.nil_append] at this

theorem finish_junk {t : Ty} (ht : Good t) {prev : t.Val} {mk : t.Val → Msg} {buf : Bytes} {m : Msg}
    (h : finishMessage t prev mk buf = .ok m) (extra : Bytes) (hx : extra ≠ []) :
    finishMessage t prev mk (buf ++ extra) = .err .notFullyRead := by
  obtain ⟨v, rfl, hv⟩ := finish_canon ht h
  have hd := decode_spec noLimit (fun _ => rfl) t {} v prev buf extra ht hv
  unfold finishMessage Unmarshal
  rw [hd]
  have : 0 < extra.length := List.length_pos_iff.mpr hx
  simp only
  rw [if_pos (by rw [List.length_append]; omega)]

theorem ping_dec (pong : Bool) (buf : Bytes) : Unmarshal (.custom ping) (⟨0, pong⟩ : Ping) buf =
    if buf.length < 4 then .err .eof buf else
      .ok (⟨UInt32.ofNat (getBE (buf.take 4)), pong⟩ : Ping) (buf.drop 4) := by
  have e : ping.dec (⟨0, pong⟩ : Ping) buf = if buf.length < 4 then .err .eof else
        .ok (4, ⟨UInt32.ofNat (getBE (buf.take 4)), pong⟩) := rfl
  simp only [Unmarshal, decode, runCustom, e]
  by_cases hl : buf.length < 4
  · rw [if_pos hl, if_pos hl]
  · rw [if_neg hl, if_neg hl]
    simp only
    rw [if_neg (by omega)]

theorem ping_finish (pong : Bool) (buf : Bytes) : finishMessage (.custom ping) (⟨0, pong⟩ : Ping) .ping buf =
    if buf.length < 4 then .err .eof else if buf.length = 4 then
      .ok (.ping ⟨UInt32.ofNat (getBE buf), pong⟩) else .err .notFullyRead := by
  unfold finishMessage
  rw [ping_dec]
  by_cases hl : buf.length < 4
  · rw [if_pos hl, if_pos hl]
  · rw [if_neg hl, if_neg hl]
    simp only [List.length_drop]
    by_cases h4 : buf.length = 4
    · rw [if_neg (by omega), if_pos h4, List.take_of_length_le (by omega)]
    · rw [if_pos (by omega), if_neg h4]

theorem decode_more {t : Ty} (ht : Good t) {prev v : t.Val} {ts : Tags} {d r : Bytes} (h : decode noLimit t prev ts d = .ok v r)
    (extra : Bytes) : decode noLimit t prev ts (d ++ extra) = .ok v (r ++ extra) := by
  obtain ⟨bs, hbs, hd⟩ := decode_canon noLimit t ts v prev d r ht h
  rw [hd, List.append_assoc]
  exact decode_spec noLimit (fun _ => rfl) t ts v prev bs (r ++ extra) ht hbs

theorem interlink_more (prev : Interlink) (d : Bytes) (v : Interlink) (r : Bytes)
    (h : runCustom interlink.dec prev d = .ok v r) (extra : Bytes) :
    ∃ v', runCustom interlink.dec prev (d ++ extra) = .ok v' (r ++ extra) := by
  have hi : interlink.dec prev d = _ := interlink_dec prev d
  have hi' : interlink.dec prev (d ++ extra) = _ := interlink_dec prev (d ++ extra)
  unfold runCustom at h ⊢
  rw [hi] at h
  rw [hi']
  cases hb : BitSet.dec d with
  | err e => rw [hb] at h; cases h
  | panic => rw [hb] at h; cases h
  | ok p =>
    obtain ⟨n, bs⟩ := p
    obtain ⟨h1, hn, rest, hr⟩ := BitSet.dec_ok hb
    have hnl : n ≤ d.length := by rw [hn, hr]; simp; omega
    have hb' : BitSet.dec (d ++ extra) = .ok (n, bs) := by
      rw [hr, List.append_assoc, hn]; exact BitSet.dec_spec _ h1 _
    rw [hb] at h
    rw [hb']
    simp only at h ⊢
    by_cases hl : 249 ≤ bs.len.toNat
    · rw [if_pos hl] at h; cases h
    · rw [if_neg hl] at h ⊢
      by_cases hs : (d.drop n).length < 32 * bs.list.count false
      · rw [if_pos hs] at h; cases h
      · rw [List.length_drop] at hs
        rw [if_neg (by rw [List.length_drop]; exact hs)] at h
        rw [if_neg (by rw [List.length_drop, List.length_append]; omega)]
        simp only at h ⊢
        rw [if_neg (by omega)] at h
        rw [if_neg (by rw [List.length_append]; omega)]
        have hrr := (Res.ok.inj h).2
        rw [← hrr, List.drop_append_of_le_length (i := n + 32 * bs.list.count false) (by omega)]
        exact ⟨_, rfl⟩

theorem block_more (prev v : blockTy.Val) (d r : Bytes) (h : decode noLimit blockTy prev {} d = .ok v r) (extra : Bytes) :
    ∃ v', decode noLimit blockTy prev {} (d ++ extra) = .ok v' (r ++ extra) := by
  obtain ⟨prevH, prevI, prevB, u⟩ := prev
  have hgb : Good (.ptr bodyTy) := by simp only [Good]; exact ⟨body_good, rfl⟩
  simp only [blockTy] at h ⊢
  rw [decode] at h ⊢
  simp only [decodeFields, fieldTags_none, fieldTags_optional] at h ⊢
  cases h1 : decode noLimit headerTy prevH {} d with
  | err e x => rw [h1] at h; cases h
  | panic => rw [h1] at h; cases h
  | ok w d1 =>
    rw [h1] at h
    rw [decode_more header_good h1 extra]
    simp only at h ⊢
    rw [decode] at h ⊢
    cases h2 : runCustom interlink.dec prevI d1 with
    | err e x => rw [h2] at h; cases h
    | panic => rw [h2] at h; cases h
    | ok il d2 =>
      rw [h2] at h
      obtain ⟨il', hil⟩ := interlink_more prevI d1 il d2 h2 extra
      rw [hil]
      simp only at h ⊢
      cases h3 : decode noLimit (.ptr bodyTy) prevB { optional := true } d2 with
      | err e x => rw [h3] at h; cases h
      | panic => rw [h3] at h; cases h
      | ok b d3 =>
        rw [h3] at h
        rw [decode_more hgb h3 extra]
        simp only [Res.map] at h
        have hrr := (Res.ok.inj h).2
        simp only [Res.map, hrr]
        exact ⟨_, rfl⟩

/-- C75. A received message other than a block is byte for byte the encoding of that message: the codec writes exactly the
received buffer for it. -/
theorem C75_canonical (t : UInt64) (buf : Bytes) (m : Msg) (h : UnmarshalMessage t buf = .ok m) (h6 : t ≠ 6) :
    marshalArg [] m.arg = .ok buf := by
  have hr := C42_receivable t buf m h
  simp only [List.mem_cons, List.not_mem_nil, or_false] at hr
  have hping : ∀ pong, finishMessage (.custom ping) (⟨0, pong⟩ : Ping) .ping buf = .ok m → marshalArg [] m.arg = .ok buf := by
    intro pong hp
    rw [ping_finish] at hp
    by_cases h1 : buf.length < 4
    · rw [if_pos h1] at hp; cases hp
    · rw [if_neg h1] at hp
      by_cases h2 : buf.length = 4
      · rw [if_pos h2] at hp
        cases hp
        have e : marshalArg [] (Msg.arg (.ping ⟨UInt32.ofNat (getBE buf), pong⟩)) =
            .ok ([] ++ putBE 4 (UInt32.ofNat (getBE buf)).toNat) := by
          show marshal (.custom ping) _ [] {} = _
          simp only [marshal]
          rfl
        have hlt := getBE_lt buf
        rw [h2] at hlt
        rw [e, List.nil_append, UInt32.toNat_ofNat', Nat.mod_eq_of_lt (by omega), putBE_getBE' h2]
      · rw [if_neg h2] at hp; cases hp
  rcases hr with rfl | rfl | rfl | rfl | rfl | rfl | rfl | rfl | rfl | rfl
  · rw [um_5] at h; exact finish_marshal getBlocks_good (fun _ => rfl) h
  · exact absurd rfl h6
  · rw [um_7] at h; exact finish_marshal headMsg_good (fun _ => rfl) h
  · rw [um_8] at h; exact finish_marshal txMsg_good (fun _ => rfl) h
  · rw [um_20] at h; exact finish_marshal addr_good (fun _ => rfl) h
  · rw [um_21] at h; exact finish_marshal getAddr_good (fun _ => rfl) h
  · rw [um_22] at h; exact hping _ h
  · rw [um_23] at h; exact hping _ h
  · rw [um_61] at h; exact finish_marshal headMsg_good (fun _ => rfl) h
  · rw [um_90] at h; exact finish_marshal verAck_good (fun _ => rfl) h

/-- C75. No message is accepted with anything behind it. -/
theorem C75_no_junk (t : UInt64) (buf : Bytes) (m : Msg) (h : UnmarshalMessage t buf = .ok m) (extra : Bytes)
    (hx : extra ≠ []) : UnmarshalMessage t (buf ++ extra) = .err .notFullyRead := by
  have hr := C42_receivable t buf m h
  simp only [List.mem_cons, List.not_mem_nil, or_false] at hr
  have hxl : 0 < extra.length := List.length_pos_iff.mpr hx
  have hping : ∀ pong, finishMessage (.custom ping) (⟨0, pong⟩ : Ping) .ping buf = .ok m →
      finishMessage (.custom ping) (⟨0, pong⟩ : Ping) .ping (buf ++ extra) = .err .notFullyRead := by
    intro pong hp
    rw [ping_finish] at hp ⊢
    by_cases h1 : buf.length < 4
    · rw [if_pos h1] at hp; cases hp
    · rw [if_neg (by rw [List.length_append]; omega), if_neg (by rw [List.length_append]; omega)]
  rcases hr with rfl | rfl | rfl | rfl | rfl | rfl | rfl | rfl | rfl | rfl
  · rw [um_5] at h ⊢; exact finish_junk getBlocks_good h extra hx
  · rw [um_6] at h ⊢
    have hz : ∀ d, Unmarshal blockMsgTy blockMsgTy.zero d =
        (decode noLimit blockTy blockMsgTy.zero.1 {} d).map fun v => (v, ()) := by
      intro d
      generalize blockMsgTy.zero = p
      obtain ⟨p, u⟩ := p
      simp only [Unmarshal, blockMsgTy]
      rw [decode]
      simp only [decodeFields, fieldTags_none]
      cases decode noLimit blockTy p {} d <;> rfl
    unfold finishMessage at h ⊢
    rw [hz] at h ⊢
    cases hd : decode noLimit blockTy blockMsgTy.zero.1 {} buf with
    | err e x => rw [hd] at h; cases h
    | panic => rw [hd] at h; cases h
    | ok v r =>
      obtain ⟨v', hv'⟩ := block_more _ v buf r hd extra
      rw [hv']
      simp only [Res.map]
      have hsuf : r.length ≤ buf.length := by
        have := decode_suffix noLimit blockTy {} blockMsgTy.zero.1 buf r (by rw [hd]; rfl)
        exact this.length_le
      rw [if_pos (by rw [List.length_append, List.length_append]; omega)]
  · rw [um_7] at h ⊢; exact finish_junk headMsg_good h extra hx
  · rw [um_8] at h ⊢; exact finish_junk txMsg_good h extra hx
  · rw [um_20] at h ⊢; exact finish_junk addr_good h extra hx
  · rw [um_21] at h ⊢; exact finish_junk getAddr_good h extra hx
  · rw [um_22] at h ⊢; exact hping _ h
  · rw [um_23] at h ⊢; exact hping _ h
  · rw [um_61] at h ⊢; exact finish_junk headMsg_good h extra hx
  · rw [um_90] at h ⊢; exact finish_junk verAck_good h extra hx

example : ∃ m, UnmarshalMessage 22 [0, 0, 1, 2] = .ok m := by
  rw [um_22, ping_finish]
  exact ⟨_, rfl⟩

end Nimiq.Wire
