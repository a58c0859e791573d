import Verif.Wire.Layouts
/-!
# The byte layout of a block (C111)

A received block is a 146 byte header, an interlink, and an optional body.  All accepted buffers are described, and what
they are decoded to, including the shifted interlink hashes (C45).
-/
namespace Nimiq.Wire
open Beserial Beserial.Spec

/-! ## Layouts (specification) -/

/-- The fields of a block body. -/
structure BodyFields where
  miner : Addr
  extraData : Bytes
  txs : List Tx
  pruned : List (Addr × Account)

/-- What a block body looks like on the wire. -/
def bodyLayout (b : BodyFields) : Bytes :=
  b.miner.val ++ digits 1 b.extraData.length ++ b.extraData ++ digits 2 b.txs.length ++ (b.txs.map txLayout).flatten ++
    digits 2 b.pruned.length ++ (b.pruned.map fun p => p.1.val ++ accountLayout p.2).flatten

/-- All lengths fit their prefixes. -/
def bodyFits (b : BodyFields) : Prop :=
  b.extraData.length < 256 ∧ b.txs.length < 65536 ∧ (∀ tx ∈ b.txs, txFits tx) ∧ b.pruned.length < 65536

/-- A pruned account as a value of the Go struct. -/
def prunedVal (p : Addr × Account) : accountPrunedTy.Val := (p.1, some p.2, ())

/-- The body as a value of the Go struct. -/
def BodyFields.val (b : BodyFields) : bodyTy.Val :=
  (b.miner, b.extraData, b.txs.map some, b.pruned.map prunedVal, ())

/-- The body behind a header and an interlink: a zero byte if there is none. -/
def optBodyLayout : Option BodyFields → Bytes
  | none => [0]
  | some b => 1 :: bodyLayout b

/-! ## Encodings -/

theorem all_map {α β} {f : β → Option Bytes} {g : α → β} {lay : α → Bytes} (l : List α)
    (h : ∀ x ∈ l, f (g x) = some (lay x)) : all f (l.map g) = some ((l.map lay).flatten) := by
  induction l with
  | nil => rfl
  | cons x l ih =>
    simp only [List.map_cons, all, h x (by simp), ih fun y hy => h y (by simp [hy]), Option.bind_eq_bind, Option.bind_some,
      Option.pure_def, List.flatten_cons]

theorem all_unmap {α β} {f : β → Option Bytes} {g : α → β} {P : α → Prop}
    (hf : ∀ y, (f y).isSome → ∃ x, y = g x ∧ P x) (l : List β) (h : ∀ y ∈ l, (f y).isSome) :
    ∃ l' : List α, l = l'.map g ∧ ∀ x ∈ l', P x := by
  induction l with
  | nil => exact ⟨[], rfl, by simp⟩
  | cons y l ih =>
    obtain ⟨l', rfl, hl'⟩ := ih fun z hz => h z (by simp [hz])
    obtain ⟨x, rfl, hx⟩ := hf y (h y (by simp))
    exact ⟨x :: l', rfl, by simpa using ⟨hx, hl'⟩⟩

theorem pruned_enc (a : Addr) (w : Option Account) (u : Unit) : enc accountPrunedTy {} ((a, w, u) : accountPrunedTy.Val) =
    (wrapAccount.spec w).map (a.val ++ ·) := by
  simp only [accountPrunedTy, enc, encFields, fieldTags_none, Option.bind_eq_bind, Option.bind_some, Option.pure_def,
    List.append_nil]
  cases wrapAccount.spec w <;> rfl

theorem enc_struct (fs : Fields) (ts : Tags) (v : (Ty.struct fs).Val) : enc (.struct fs) ts v = encFields fs v := by rw [enc]
theorem enc_custom (c : Codec) (ts : Tags) (v : (Ty.custom c).Val) : enc (.custom c) ts v = c.spec v := by rw [enc]
theorem enc_arr (n : Nat) (ts : Tags) (v : BArr n) : enc (.byteArr n) ts v = some v.val := by rw [enc]
theorem enc_bytes (k : LenKind) (o : Bool) (v : Bytes) : enc .byteSlice ⟨some k, o⟩ v =
    if v.length ≤ maxLen k then some (digits (lenBytes k) v.length ++ v) else none := by
  rw [enc]
  simp only [Spec.len]
  split <;> rfl
theorem enc_slice (t : Ty) (k : LenKind) (o : Bool) (v : List t.Val) : enc (.slice t) ⟨some k, o⟩ v =
    if v.length ≤ maxLen k then (all (fun x => enc t {} x) v).map (digits (lenBytes k) v.length ++ ·) else none := by
  rw [enc]
  simp only [Spec.len]
  split
  · cases all (fun x => enc t {} x) v <;> rfl
  · rfl

theorem enc_txs (k : LenKind) (o : Bool) (v : List (Option Tx)) : enc (.slice (.custom wrapTx)) ⟨some k, o⟩ v =
    if v.length ≤ maxLen k then (all (fun x => wrapTx.spec x) v).map (digits (lenBytes k) v.length ++ ·) else none := by
  have := enc_slice (.custom wrapTx) k o v
  simp only [enc_custom] at this
  exact this

theorem body_enc_parts (m : Addr) (x : Bytes) (txs : List (Option Tx)) (pr : List accountPrunedTy.Val) (u : Unit) (ts : Tags) :
    enc bodyTy ts ((m, x, txs, pr, u) : bodyTy.Val) =
      if x.length < 256 ∧ txs.length < 65536 ∧ pr.length < 65536 then
        match all (fun w => wrapTx.spec w) txs, all (fun p => enc accountPrunedTy {} p) pr with
        | some a, some b => some (m.val ++ digits 1 x.length ++ x ++ digits 2 txs.length ++ a ++ digits 2 pr.length ++ b)
        | _, _ => none
      else none := by
  simp only [bodyTy]
  rw [enc_struct]
  simp only [encFields, fieldTags_none, fieldTags_u8, fieldTags_u16, Option.bind_eq_bind, Option.bind_some, Option.pure_def]
  rw [enc_arr, enc_bytes, enc_txs, enc_slice]
  by_cases h1 : x.length < 256
  · by_cases h2 : txs.length < 65536
    · by_cases h3 : pr.length < 65536
      · rw [if_pos (show (x.length < 256 ∧ txs.length < 65536 ∧ pr.length < 65536) by omega),
          if_pos (show x.length ≤ maxLen .u8 by simp only [maxLen]; omega),
          if_pos (show txs.length ≤ maxLen .u16 by simp only [maxLen]; omega),
          if_pos (show pr.length ≤ maxLen .u16 by simp only [maxLen]; omega)]
        cases all (fun w => wrapTx.spec w) txs with
        | none => rfl
        | some a =>
          cases all (fun p => enc accountPrunedTy {} p) pr with
          | none => rfl
          | some b => simp [LenKind.size]
      · rw [if_neg (show ¬ (x.length < 256 ∧ txs.length < 65536 ∧ pr.length < 65536) by omega),
          if_neg (show ¬ pr.length ≤ maxLen .u16 by simp only [maxLen]; omega)]
        cases all (fun w => wrapTx.spec w) txs <;> (repeat' split) <;> rfl
    · rw [if_neg (show ¬ (x.length < 256 ∧ txs.length < 65536 ∧ pr.length < 65536) by omega),
          if_neg (show ¬ txs.length ≤ maxLen .u16 by simp only [maxLen]; omega)]
      split <;> rfl
  · rw [if_neg (show ¬ (x.length < 256 ∧ txs.length < 65536 ∧ pr.length < 65536) by omega),
          if_neg (show ¬ x.length ≤ maxLen .u8 by simp only [maxLen]; omega)]
    rfl

theorem body_layout_parts (m : Addr) (x : Bytes) (txs : List (Option Tx)) (pr : List accountPrunedTy.Val) (u : Unit)
    (ts : Tags) (bs : Bytes) (h : enc bodyTy ts ((m, x, txs, pr, u) : bodyTy.Val) = some bs) :
    ∃ b : BodyFields, bodyFits b ∧ ((m, x, txs, pr, u) : bodyTy.Val) = b.val ∧ bs = bodyLayout b := by
  have htx : ∀ tx, txFits tx → wrapTx.spec (some tx) = some (txLayout tx) := fun tx h => wrapTx_spec_some tx h
  have hacc : ∀ p : Addr × Account, enc accountPrunedTy {} (prunedVal p) =
      some (p.1.val ++ accountLayout p.2) := fun p =>
    (pruned_enc p.1 (some p.2) ()).trans (by rw [wrapAccount_spec_some]; rfl)
  have h := (body_enc_parts m x txs pr u ts).symm.trans h
  by_cases hc : x.length < 256 ∧ txs.length < 65536 ∧ pr.length < 65536
  · rw [if_pos hc] at h
    cases h1 : all (fun w => wrapTx.spec w) txs with
    | none => rw [h1] at h; cases h
    | some a =>
      cases h2 : all (fun p => enc accountPrunedTy {} p) pr with
      | none => rw [h1, h2] at h; cases h
      | some b =>
        rw [h1, h2] at h
        obtain ⟨txs', rfl, hf⟩ := all_unmap (f := fun w => wrapTx.spec w) (g := some) (P := txFits) (by
          intro w hw
          cases w with
          | none => cases hw
          | some tx =>
            refine ⟨tx, rfl, ?_⟩
            apply Classical.byContradiction
            intro hn
            rw [wrapTx_spec_none tx hn] at hw
            cases hw) txs ((all_isSome txs).mp (Option.isSome_of_eq_some h1))
        obtain ⟨pr', rfl, _⟩ := all_unmap (f := fun p => enc accountPrunedTy {} p)
          (g := prunedVal) (P := fun _ => True) (by
          intro p hp
          obtain ⟨a, w, u⟩ := p
          have hp : ((wrapAccount.spec w).map (a.val ++ ·)).isSome := by
            have e := pruned_enc a w u
            exact (congrArg Option.isSome e).symm.trans hp
          cases w with
          | none => cases hp
          | some acc => exact ⟨(a, acc), rfl, trivial⟩) pr ((all_isSome pr).mp (Option.isSome_of_eq_some h2))
        have h1 := (all_map (f := fun w => wrapTx.spec w) txs' fun tx h => htx tx (hf tx h)).symm.trans h1
        have h2 := (all_map (f := fun p => enc accountPrunedTy {} p) pr' fun p _ => hacc p).symm.trans h2
        cases h1
        cases h2
        have l1 : (txs'.map some).length = txs'.length := List.length_map _
        have l2 : (pr'.map prunedVal).length = pr'.length := List.length_map _
        refine ⟨⟨m, x, txs', pr'⟩, ⟨hc.1, Nat.lt_of_le_of_lt (Nat.le_of_eq l1.symm) hc.2.1, hf,
          Nat.lt_of_le_of_lt (Nat.le_of_eq l2.symm) hc.2.2⟩, rfl, (Option.some.inj h).symm.trans ?_⟩
        show m.val ++ digits 1 (List.length x) ++ x ++ digits 2 (txs'.map some).length ++ (txs'.map txLayout).flatten ++
          digits 2 (pr'.map prunedVal).length ++
          (pr'.map fun p => p.1.val ++ accountLayout p.2).flatten = bodyLayout ⟨m, x, txs', pr'⟩
        rw [l1, l2]
        rfl
  · rw [if_neg hc] at h; cases h

theorem body_enc_of (m : Addr) (x : Bytes) (txs : List (Option Tx)) (pr : List accountPrunedTy.Val) (u : Unit) (ts : Tags)
    (n k : Nat) (a b : Bytes) (h1 : x.length < 256) (h2 : n < 65536) (h3 : k < 65536) (l1 : txs.length = n) (l2 : pr.length = k)
    (e1 : all (fun w => wrapTx.spec w) txs = some a) (e2 : all (fun p => enc accountPrunedTy {} p) pr = some b) :
    enc bodyTy ts ((m, x, txs, pr, u) : bodyTy.Val) =
      some (m.val ++ digits 1 x.length ++ x ++ digits 2 n ++ a ++ digits 2 k ++ b) := by
  rw [body_enc_parts, e1, e2, l1, l2, if_pos ⟨h1, h2, h3⟩]

/-- The encodings of a body are the documented layouts. -/
theorem body_layout_iff (v : bodyTy.Val) (ts : Tags) (bs : Bytes) : enc bodyTy ts v = some bs ↔
    ∃ b : BodyFields, bodyFits b ∧ v = b.val ∧ bs = bodyLayout b := by
  constructor
  · intro h
    obtain ⟨m, x, txs, pr, u⟩ := v
    exact body_layout_parts m x txs pr u ts bs h
  · rintro ⟨⟨m, x, txs, pr⟩, ⟨h1, h2, hf, h3⟩, rfl, rfl⟩
    have l1 : (txs.map some).length = txs.length := List.length_map _
    have l2 : (pr.map prunedVal).length = pr.length := List.length_map _
    have e1 : all (fun w => wrapTx.spec w) (txs.map some) = some ((txs.map txLayout).flatten) :=
      all_map (f := fun w => wrapTx.spec w) txs fun tx h => wrapTx_spec_some tx (hf tx h)
    have e2 : all (fun p => enc accountPrunedTy {} p) (pr.map prunedVal) =
        some ((pr.map fun p => p.1.val ++ accountLayout p.2).flatten) :=
      all_map (f := fun p => enc accountPrunedTy {} p) pr fun p _ =>
        (pruned_enc p.1 (some p.2) ()).trans (by rw [wrapAccount_spec_some]; rfl)
    exact body_enc_of m x (txs.map some) (pr.map prunedVal) () ts _ _ _ _ h1 h2 h3
      l1 l2 e1 e2

/-! ## The interlink -/

/-- How many of the declared repeat bits are 0, each of which takes a hash. -/
def newHashes (r : BitSet) : Nat := r.list.count false

/-- What the decoder makes of an interlink: slot `j` of the compressed hashes gets the 32 bytes after the `j`-th hash (from
`data`, which starts with the hashes and goes on with whatever follows), and there is an extra zero hash for every
undeclared 0 bit. -/
def decodedInterlink (r : BitSet) (data : Bytes) (prevHash : Hash32) : Interlink :=
  ⟨r, hashRefs r.list .prev 0, prevHash, (List.range ((allBits r.bits).count false)).map fun j =>
    if j < newHashes r then BArr.copy 32 (data.drop (32 * (j + 1))) else BArr.zero 32⟩

theorem shifted_eq (r : BitSet) (data : Bytes) :
    shifted (r.list.count false) 0 (List.replicate ((allBits r.bits).count false) (BArr.zero 32)) data =
      (List.range ((allBits r.bits).count false)).map fun j =>
        if j < newHashes r then BArr.copy 32 (data.drop (32 * (j + 1))) else BArr.zero 32 := by
  have hcnt : r.list.count false ≤ (allBits r.bits).count false := (List.take_sublist _ _).count_le _
  apply List.ext_getElem?
  intro j
  rw [shifted_get _ _ _ _ _ (by rw [List.length_replicate]; omega), List.getElem?_map, List.getElem?_replicate]
  by_cases hj : j < (allBits r.bits).count false
  · rw [List.getElem?_range hj, if_pos hj]
    simp only [Option.map_some, newHashes, Nat.sub_zero, Nat.zero_add, Nat.zero_le, true_and]
    by_cases hz : j < r.list.count false
    · rw [if_pos hz]; exact congrArg some (if_pos hz).symm
    · rw [if_neg hz]; exact congrArg some (if_neg hz).symm
  · rw [List.getElem?_eq_none (by rw [List.length_range]; omega), if_neg hj, if_neg (by omega)]
    rfl

theorem interlink_layout_iff (prev il : Interlink) (d rest : Bytes) :
    runCustom interlink.dec prev d = .ok il rest ↔
      ∃ (r : BitSet) (hashes : Bytes), r.len.toNat ≤ 248 ∧ r.bits.length = (r.len.toNat + 7) / 8 ∧
        hashes.length = 32 * newHashes r ∧ d = [r.len] ++ r.bits ++ hashes ++ rest ∧
        il = decodedInterlink r (hashes ++ rest) prev.prevHash := by
  have hi : interlink.dec prev d = _ := interlink_dec prev d
  unfold runCustom
  rw [hi]
  constructor
  · intro h
    cases hb : BitSet.dec d with
    | err e => rw [hb] at h; cases h
    | panic => rw [hb] at h; cases h
    | ok p =>
      obtain ⟨n, r⟩ := p
      obtain ⟨h1, hn, tail, hr⟩ := BitSet.dec_ok hb
      have hdrop : d.drop n = tail := by
        rw [hr, hn, show 1 + r.bits.length = (r.len :: r.bits).length by rw [List.length_cons]; omega, List.drop_left]
      rw [hb] at h
      simp only at h
      by_cases hl : 249 ≤ r.len.toNat
      · rw [if_pos hl] at h; cases h
      · rw [if_neg hl, hdrop] at h
        by_cases hs : tail.length < 32 * r.list.count false
        · rw [if_pos hs] at h; cases h
        · rw [if_neg hs, shifted_eq] at h
          simp only at h
          have hlen : d.length = n + tail.length := by rw [hr, hn]; simp; omega
          rw [if_neg (by omega), ← List.drop_drop, hdrop] at h
          cases h
          refine ⟨r, tail.take (32 * newHashes r), by omega, by rw [h1, bitSet_size_of_lt _ (by omega)],
            by rw [List.length_take]; simp only [newHashes]; omega, ?_, ?_⟩
          · rw [hr]
            simp [newHashes]
          · rw [show 32 * r.list.count false = 32 * newHashes r from rfl, List.take_append_drop]
            rfl
  · rintro ⟨r, hashes, hl, hbits, hh, rfl, rfl⟩
    have hb : BitSet.dec ([r.len] ++ r.bits ++ hashes ++ rest) = .ok (1 + r.bits.length, r) := by
      have := BitSet.dec_spec r (by rw [hbits, bitSet_size_of_lt _ (by omega)]) (hashes ++ rest)
      rw [← this]
      simp
    have hdrop : ([r.len] ++ r.bits ++ hashes ++ rest).drop (1 + r.bits.length) = hashes ++ rest := by
      rw [show 1 + r.bits.length = ([r.len] ++ r.bits).length by simp; omega, List.append_assoc, List.drop_left]
    have hh' : hashes.length = 32 * r.list.count false := hh
    rw [hb]
    simp only
    rw [if_neg (by omega), hdrop, if_neg (by rw [List.length_append]; omega)]
    simp only
    rw [if_neg (by simp only [List.length_append, List.length_singleton]; omega), ← List.drop_drop, hdrop, ← hh',
      List.drop_left, shifted_eq]
    rfl

/-! ## Blocks -/

theorem optBody_iff (prev v : Option bodyTy.Val) (d rest : Bytes) :
    decode noLimit (.ptr bodyTy) prev { optional := true } d = .ok v rest ↔
      ∃ o : Option BodyFields, (∀ b, o = some b → bodyFits b) ∧ v = o.map BodyFields.val ∧ d = optBodyLayout o ++ rest := by
  have hgb : Good (.ptr bodyTy) := by simp only [Good]; exact ⟨body_good, rfl⟩
  have he : ∀ w : Option bodyTy.Val, enc (.ptr bodyTy) { optional := true } w =
      match w with
      | none => some [0]
      | some x => (enc bodyTy { optional := true } x).map (1 :: ·) := by
    intro w
    rw [enc.eq_def]
    simp only
    rw [if_neg (by rw [show isCustom bodyTy = false from rfl]; exact Bool.false_ne_true)]
    cases w with
    | none => rfl
    | some x =>
      simp only [if_true]
      cases enc bodyTy { optional := true } x <;> rfl
  constructor
  · intro h
    obtain ⟨bs, hbs, hd⟩ := decode_canon noLimit _ _ _ _ _ _ hgb h
    rw [he] at hbs
    cases v with
    | none =>
      cases hbs
      exact ⟨none, (by intro b hb; cases hb), rfl, hd⟩
    | some x =>
      simp only [Option.map_eq_some_iff] at hbs
      obtain ⟨bb, hbb, rfl⟩ := hbs
      obtain ⟨b, hf, rfl, rfl⟩ := (body_layout_iff x _ bb).mp hbb
      exact ⟨some b, (by intro b' hb'; cases hb'; exact hf), rfl, hd⟩
  · rintro ⟨o, hf, rfl, rfl⟩
    refine decode_spec noLimit (fun _ => rfl) (.ptr bodyTy) { optional := true } _ prev _ rest hgb ?_
    rw [he]
    cases o with
    | none => rfl
    | some b =>
      simp only [Option.map_some]
      rw [(body_layout_iff b.val { optional := true } (bodyLayout b)).mpr ⟨b, hf b rfl, rfl, rfl⟩]
      rfl

theorem header_layout_iff (prev w : headerTy.Val) (d rest : Bytes) :
    decode noLimit headerTy prev {} d = .ok w rest ↔ ∃ h : HeaderFields, w = h.hdr ∧ d = headerLayout h ++ rest := by
  have he : ∀ h : HeaderFields, enc headerTy {} h.hdr = some (headerLayout h) := by
    intro h
    simp [headerTy, HeaderFields.hdr, enc, encFields, fieldTags_none, Spec.num, headerLayout]
  constructor
  · intro h
    obtain ⟨bs, hbs, hd⟩ := decode_canon noLimit _ _ _ _ _ _ header_good h
    obtain ⟨f, rfl⟩ := headerHdr_surj w
    rw [he] at hbs
    cases hbs
    exact ⟨f, rfl, hd⟩
  · rintro ⟨f, rfl, rfl⟩
    exact decode_spec noLimit (fun _ => rfl) headerTy {} _ prev _ rest header_good (he f)

theorem block_parts_iff (pH : headerTy.Val) (pI : Interlink) (pB : Option bodyTy.Val) (v : blockTy.Val) (d rest : Bytes) :
    decode noLimit blockTy (pH, pI, pB, ()) {} d = .ok v rest ↔
      ∃ w d1 il d2 b, decode noLimit headerTy pH {} d = .ok w d1 ∧ runCustom interlink.dec pI d1 = .ok il d2 ∧
        decode noLimit (.ptr bodyTy) pB { optional := true } d2 = .ok b rest ∧ v = (w, il, b, ()) := by
  have hc : ∀ (p : (Ty.custom interlink).Val) d, decode noLimit (.custom interlink) p {} d = runCustom interlink.dec p d := by
    intro p d; rw [decode]
  simp only [blockTy]
  rw [decode]
  simp only [decodeFields, fieldTags_none, fieldTags_optional]
  cases h1 : decode noLimit headerTy pH {} d with
  | err e x => simp
  | panic => simp
  | ok w d1 =>
    simp only
    have hc' := hc pI d1
    rw [hc']
    cases h2 : runCustom interlink.dec pI d1 with
    | err e x =>
      constructor
      · intro h; cases h
      · rintro ⟨w', d1', il', d2', b', e1, e2, e3, rfl⟩
        cases e1
        rw [h2] at e2
        cases e2
    | panic =>
      constructor
      · intro h; cases h
      · rintro ⟨w', d1', il', d2', b', e1, e2, e3, rfl⟩
        cases e1
        rw [h2] at e2
        cases e2
    | ok il d2 =>
      simp only
      cases h3 : decode noLimit (.ptr bodyTy) pB { optional := true } d2 with
      | err e x =>
        constructor
        · intro h; cases h
        · rintro ⟨w', d1', il', d2', b', e1, e2, e3, rfl⟩
          cases e1
          rw [h2] at e2
          cases e2
          rw [h3] at e3
          cases e3
      | panic =>
        constructor
        · intro h; cases h
        · rintro ⟨w', d1', il', d2', b', e1, e2, e3, rfl⟩
          cases e1
          rw [h2] at e2
          cases e2
          rw [h3] at e3
          cases e3
      | ok b d3 =>
        simp only [Res.map]
        constructor
        · intro h
          cases h
          exact ⟨w, d1, il, d2, b, rfl, h2, h3, rfl⟩
        · rintro ⟨w', d1', il', d2', b', e1, e2, e3, rfl⟩
          cases e1
          rw [h2] at e2
          cases e2
          rw [h3] at e3
          cases e3
          rfl

/-- C111. A block (type 6). The accepted buffers are exactly the documented ones; header and body are what the buffer
says, the interlink has the repeat bits of the buffer and the shifted hashes. -/
theorem C111_receive_block (buf : Bytes) (m : Msg) : UnmarshalMessage 6 buf = .ok m ↔
    ∃ (h : HeaderFields) (r : BitSet) (hashes : Bytes) (body : Option BodyFields),
      r.len.toNat ≤ 248 ∧ r.bits.length = (r.len.toNat + 7) / 8 ∧ hashes.length = 32 * newHashes r ∧
      (∀ b, body = some b → bodyFits b) ∧
      buf = headerLayout h ++ ([r.len] ++ r.bits ++ hashes) ++ optBodyLayout body ∧
      m = .block ((h.hdr, decodedInterlink r (hashes ++ optBodyLayout body) (BArr.zero 32), body.map BodyFields.val, ()), ()) := by
  have hz : ∀ d, Unmarshal blockMsgTy blockMsgTy.zero d =
      (decode noLimit blockTy blockTy.zero {} d).map fun v => (v, ()) := by
    intro d
    have hzz : blockMsgTy.zero = (blockTy.zero, ()) := rfl
    rw [hzz]
    generalize blockTy.zero = p
    simp only [Unmarshal, blockMsgTy]
    rw [decode]
    simp only [decodeFields, fieldTags_none]
    cases decode noLimit blockTy p {} d <;> rfl
  have hbz : blockTy.zero = (headerTy.zero, interlink.zero, none, ()) := rfl
  have hpz : (interlink.zero : Interlink).prevHash = BArr.zero 32 := rfl
  rw [um_6]
  unfold finishMessage
  rw [hz, hbz]
  constructor
  · intro h
    cases hd : decode noLimit blockTy (headerTy.zero, interlink.zero, none, ()) {} buf with
    | err e x => rw [hd] at h; cases h
    | panic => rw [hd] at h; cases h
    | ok v rest =>
      rw [hd] at h
      simp only [Res.map] at h
      obtain ⟨w, d1, il, d2, b, h1, h2, h3, rfl⟩ := (block_parts_iff _ _ _ _ _ _).mp hd
      obtain ⟨f, rfl, rfl⟩ := (header_layout_iff _ _ _ _).mp h1
      obtain ⟨r, hashes, hl, hb, hh, rfl, rfl⟩ := (interlink_layout_iff _ _ _ _).mp h2
      obtain ⟨o, hf, rfl, rfl⟩ := (optBody_iff _ _ _ _).mp h3
      by_cases hr : rest = []
      · subst hr
        simp only [List.append_nil] at h ⊢
        rw [if_neg (by simp)] at h
        cases h
        refine ⟨f, r, hashes, o, hl, hb, hh, hf, by simp, by rw [hpz]⟩
      · have : 0 < rest.length := List.length_pos_iff.mpr hr
        rw [if_pos (by simp only [List.length_append]; omega)] at h
        cases h
  · rintro ⟨f, r, hashes, o, hl, hb, hh, hf, rfl, rfl⟩
    have hd := (block_parts_iff headerTy.zero interlink.zero none _
      (headerLayout f ++ ([r.len] ++ r.bits ++ hashes) ++ optBodyLayout o) []).mpr
      ⟨f.hdr, [r.len] ++ r.bits ++ hashes ++ (optBodyLayout o ++ []), _, optBodyLayout o ++ [], o.map BodyFields.val,
        (header_layout_iff _ _ _ _).mpr ⟨f, rfl, by simp⟩,
        (interlink_layout_iff _ _ _ _).mpr ⟨r, hashes, hl, hb, hh, rfl, rfl⟩,
        (optBody_iff _ _ _ _).mpr ⟨o, hf, rfl, rfl⟩, rfl⟩
    rw [hd]
    simp only [Res.map]
    rw [if_neg (by simp)]
    simp only [List.append_nil, hpz]

/-- A block with a transaction and a pruned account, and an interlink of three positions with two hashes, is accepted. -/
example (h : HeaderFields) (t : BasicTx) (a : Addr) (acc : Account) (h1 h2 : Hash32) :
    ∃ m, UnmarshalMessage 6 (headerLayout h ++ ([3] ++ [0x40] ++ (h1.val ++ h2.val)) ++
      optBodyLayout (some ⟨a, [1, 2, 3], [.basic t], [(a, acc)]⟩)) = .ok m :=
  ⟨_, (C111_receive_block _ _).mpr ⟨h, ⟨3, [0x40]⟩, h1.val ++ h2.val, some ⟨a, [1, 2, 3], [.basic t], [(a, acc)]⟩,
    by decide, rfl, by rw [List.length_append, h1.property, h2.property]; rfl,
    fun b hb => by cases hb; exact ⟨by simp, by simp, by intro tx htx; simp at htx; subst htx; trivial, by simp⟩, rfl, rfl⟩⟩

end Nimiq.Wire
