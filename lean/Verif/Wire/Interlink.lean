import Verif.Wire.Codecs
/-!
# Blocks and interlinks (C45)
-/
namespace Nimiq.Wire
open Beserial Beserial.Spec

/-! ## Specification: bits of a byte string, pointers of an interlink -/

/-- The bits of a byte, most significant first. -/
def byteBits (x : UInt8) : List Bool := (List.range 8).map fun i => x.toNat.testBit (7 - i)

/-- The bits of a byte string. -/
def allBits (b : Bytes) : List Bool := b.flatMap byteBits

/-- The declared bits of a bit set. -/
def BitSet.list (r : BitSet) : List Bool := (allBits r.bits).take r.len.toNat

/-- Which hash each interlink position refers to: a 1 repeats the previous reference, a 0 takes the next hash. -/
def hashRefs : List Bool → HashRef → Nat → List HashRef
  | [], _, _ => []
  | true :: bs, cur, next => cur :: hashRefs bs cur next
  | false :: bs, _, next => .at next :: hashRefs bs (.at next) (next + 1)

/-- An interlink as the protocol has it: bits and length agree, one hash per 0 bit. -/
structure Interlink.Ok (il : Interlink) : Prop where
  len : il.repeats.len.toNat ≤ 248
  bits : il.repeats.bits.length = (il.repeats.len.toNat + 7) / 8
  comp : il.compressed.length = il.repeats.list.count false

/-- The bytes of the compressed hashes. -/
def Interlink.hashBytes (il : Interlink) : Bytes := (il.compressed.map (·.val)).flatten

/-! ## Bits -/

theorem byteBits_length (x : UInt8) : (byteBits x).length = 8 := by simp [byteBits]

theorem u8_forall {p : UInt8 → Prop} (h : ∀ i : Fin 256, p (UInt8.ofNat i.val)) (x : UInt8) : p x := by
  have := h ⟨x.toNat, x.toNat_lt⟩
  simpa using this

theorem ones_zeros (x : UInt8) : 8 - onesCount8 x = (byteBits x).count false :=
  u8_forall (p := fun x => 8 - onesCount8 x = (byteBits x).count false) (by decide +kernel) x

theorem compressedCount_eq (b : Bytes) : compressedCount b = (allBits b).count false := by
  induction b with
  | nil => rfl
  | cons x b ih =>
    have e : compressedCount (x :: b) = (8 - onesCount8 x) + compressedCount b := by simp [compressedCount]
    rw [e, ih, ones_zeros]
    simp [allBits]

theorem allBits_length (b : Bytes) : (allBits b).length = 8 * b.length := by
  induction b with
  | nil => rfl
  | cons x b ih =>
    have e : allBits (x :: b) = byteBits x ++ allBits b := by simp [allBits]
    rw [e, List.length_append, ih, byteBits_length, List.length_cons]; omega

theorem allBits_get (b : Bytes) : ∀ i, (allBits b)[i]? = b[i / 8]?.map fun x => x.toNat.testBit (7 - i % 8) := by
  induction b with
  | nil => intro i; simp [allBits]
  | cons x b ih =>
    intro i
    have e : allBits (x :: b) = byteBits x ++ allBits b := by simp [allBits]
    rw [e]
    by_cases hi : i < 8
    · rw [List.getElem?_append_left (by rw [byteBits_length]; exact hi), Nat.div_eq_of_lt hi, Nat.mod_eq_of_lt hi]
      simp [byteBits, hi]
    · rw [List.getElem?_append_right (by rw [byteBits_length]; omega), ih, byteBits_length,
        show i / 8 = (i - 8) / 8 + 1 by omega, List.getElem?_cons_succ, show (i - 8) % 8 = i % 8 by omega]

theorem bit_eq (r : BitSet) (i : UInt8) :
    r.bit i = match (allBits r.bits)[i.toNat]? with | none => .panic | some b => .ok b := by
  have hd : (i / 8).toNat = i.toNat / 8 := by rw [UInt8.toNat_div]; rfl
  rw [allBits_get]
  simp only [BitSet.bit, hd]
  cases hx : r.bits[i.toNat / 8]? with
  | none => simp
  | some x =>
    simp only [Option.map_some, Out.ok.injEq]
    have hj : (i % 8).toNat < 8 := by rw [UInt8.toNat_mod]; exact Nat.mod_lt _ (by decide)
    have e : i.toNat % 8 = (i % 8).toNat := by rw [UInt8.toNat_mod]; rfl
    rw [e]
    generalize i % 8 = k at hj
    have : ∀ k' : Fin 8, ∀ x' : Fin 256, ((UInt8.ofNat x'.val) &&& (0x80 >>> (UInt8.ofNat k'.val)) != 0) =
        x'.val.testBit (7 - k'.val) := by decide +kernel
    have t := this ⟨k.toNat, hj⟩ ⟨x.toNat, x.toNat_lt⟩
    simpa using t

theorem bits_list_length {r : BitSet} (hb : r.bits.length = BitSet.size r.len) (hl : r.len.toNat < 249) :
    r.list.length = r.len.toNat := by
  rw [bitSet_size_of_lt _ hl] at hb
  rw [BitSet.list, List.length_take, allBits_length]; omega

/-! ## The decoding loop -/

/-- What the loop leaves in `Compressed`: slot `idx + j` gets the 32 bytes *after* the `j`-th hash. -/
def shifted : Nat → Nat → List Hash32 → Bytes → List Hash32
  | 0, _, comp, _ => comp
  | z + 1, idx, comp, b => shifted z (idx + 1) (comp.set idx (BArr.copy 32 (b.drop 32))) (b.drop 32)

theorem shifted_length (z : Nat) : ∀ idx comp b, (shifted z idx comp b).length = comp.length := by
  induction z with
  | zero => intros; rfl
  | succ z ih => intro idx comp b; rw [shifted, ih, List.length_set]

theorem shifted_get (z : Nat) : ∀ idx comp b j, idx + z ≤ comp.length → (shifted z idx comp b)[j]? =
    if idx ≤ j ∧ j < idx + z then some (BArr.copy 32 (b.drop (32 * (j - idx + 1)))) else comp[j]? := by
  induction z with
  | zero => intro idx comp b j _; rw [shifted, if_neg (by omega)]
  | succ z ih =>
    intro idx comp b j h
    rw [shifted, ih _ _ _ _ (by rw [List.length_set]; omega), List.drop_drop]
    by_cases h1 : idx + 1 ≤ j ∧ j < idx + 1 + z
    · rw [if_pos h1, if_pos (by omega)]
      congr 2; congr 1; omega
    · rw [if_neg h1]
      by_cases h2 : idx = j
      · subst h2
        rw [if_pos (by omega), List.getElem?_set_self (by omega)]
        simp
      · rw [if_neg (by omega), List.getElem?_set_ne h2]

theorem loop_ok (r : BitSet) : ∀ (n : Nat) (i : UInt8) (cur : HashRef) (idx : Nat) (comp : List Hash32) (b : Bytes),
    i.toNat + n < 256 → i.toNat + n ≤ (allBits r.bits).length →
    idx + (((allBits r.bits).drop i.toNat).take n).count false ≤ comp.length →
    32 * (((allBits r.bits).drop i.toNat).take n).count false ≤ b.length →
    interlinkLoop r n i cur idx comp b = .ok (hashRefs (((allBits r.bits).drop i.toNat).take n) cur idx,
      shifted ((((allBits r.bits).drop i.toNat).take n).count false) idx comp b,
      b.drop (32 * (((allBits r.bits).drop i.toNat).take n).count false)) := by
  intro n
  induction n with
  | zero => intro i cur idx comp b _ _ _ _; simp [interlinkLoop, hashRefs, shifted]
  | succ n ih =>
    intro i cur idx comp b hi hlen hc hb
    have hlt : i.toNat < (allBits r.bits).length := by omega
    have hadd : (i + 1).toNat = i.toNat + 1 := by
      rw [UInt8.toNat_add]; show (i.toNat + 1) % 256 = _; omega
    have hsplit : ((allBits r.bits).drop i.toNat).take (n + 1) =
        (allBits r.bits)[i.toNat] :: ((allBits r.bits).drop (i + 1).toNat).take n := by
      rw [List.drop_eq_getElem_cons hlt, List.take_succ_cons, hadd]
    rw [hsplit] at hc hb ⊢
    have hbit := bit_eq r i
    rw [List.getElem?_eq_getElem hlt] at hbit
    simp only at hbit
    simp only [interlinkLoop, hbit]
    cases hv : (allBits r.bits)[i.toNat] with
    | true =>
      rw [hv] at hc hb
      simp only [List.count_cons_of_ne (show true ≠ false by decide)] at hc hb ⊢
      simp only [ih (i + 1) cur idx comp b (by omega) (by omega) hc hb, hashRefs]
    | false =>
      rw [hv] at hc hb
      simp only [List.count_cons_self] at hc hb ⊢
      rw [if_neg (by omega), if_neg (by omega)]
      have := ih (i + 1) (.at idx) (idx + 1) (comp.set idx (BArr.copy 32 (b.drop 32))) (b.drop 32) (by omega) (by omega)
        (by rw [List.length_set]; omega) (by rw [List.length_drop]; omega)
      simp only [this, hashRefs, shifted, List.drop_drop]
      congr 4
      omega

theorem loop_short (r : BitSet) : ∀ (n : Nat) (i : UInt8) (cur : HashRef) (idx : Nat) (comp : List Hash32) (b : Bytes),
    i.toNat + n < 256 → i.toNat + n ≤ (allBits r.bits).length →
    idx + (((allBits r.bits).drop i.toNat).take n).count false ≤ comp.length →
    b.length < 32 * (((allBits r.bits).drop i.toNat).take n).count false →
    interlinkLoop r n i cur idx comp b = .err .eof := by
  intro n
  induction n with
  | zero => intro i cur idx comp b _ _ _ hb; simp at hb
  | succ n ih =>
    intro i cur idx comp b hi hlen hc hb
    have hlt : i.toNat < (allBits r.bits).length := by omega
    have hadd : (i + 1).toNat = i.toNat + 1 := by
      rw [UInt8.toNat_add]; show (i.toNat + 1) % 256 = _; omega
    have hsplit : ((allBits r.bits).drop i.toNat).take (n + 1) =
        (allBits r.bits)[i.toNat] :: ((allBits r.bits).drop (i + 1).toNat).take n := by
      rw [List.drop_eq_getElem_cons hlt, List.take_succ_cons, hadd]
    rw [hsplit] at hc hb
    have hbit := bit_eq r i
    rw [List.getElem?_eq_getElem hlt] at hbit
    simp only at hbit
    simp only [interlinkLoop, hbit]
    cases hv : (allBits r.bits)[i.toNat] with
    | true =>
      rw [hv] at hc hb
      simp only [List.count_cons_of_ne (show true ≠ false by decide)] at hc hb ⊢
      simp only [ih (i + 1) cur idx comp b (by omega) (by omega) hc hb]
    | false =>
      rw [hv] at hc hb
      simp only [List.count_cons_self] at hc hb ⊢
      rw [if_neg (by omega)]
      by_cases hs : b.length < 32
      · rw [if_pos hs]
      · rw [if_neg hs]
        have := ih (i + 1) (.at idx) (idx + 1) (comp.set idx (BArr.copy 32 (b.drop 32))) (b.drop 32) (by omega) (by omega)
          (by rw [List.length_set]; omega) (by rw [List.length_drop]; omega)
        simp only [this]

/-- Complete description of the interlink decoder. -/
theorem interlink_dec (prev : Interlink) (d : Bytes) :
    Interlink.dec prev d = match BitSet.dec d with
      | .ok (n, r) =>
        if 249 ≤ r.len.toNat then .panic
        else if (d.drop n).length < 32 * r.list.count false then .err .eof
        else .ok (n + 32 * r.list.count false, ⟨r, hashRefs r.list .prev 0, prev.prevHash,
          shifted (r.list.count false) 0 (List.replicate ((allBits r.bits).count false) (BArr.zero 32)) (d.drop n)⟩)
      | .err e => .err e
      | .panic => .panic := by
  unfold Interlink.dec
  cases hd : BitSet.dec d with
  | err e => rfl
  | panic => rfl
  | ok p =>
    obtain ⟨n, r⟩ := p
    obtain ⟨h1, hn, rest, hr⟩ := BitSet.dec_ok hd
    simp only
    have hnl : n ≤ d.length := by rw [hn, hr]; simp; omega
    by_cases hl : 249 ≤ r.len.toNat
    · rw [if_pos hl]
      rw [bitSet_size_of_ge _ hl] at h1
      have hbits : r.bits = [] := List.eq_nil_of_length_eq_zero h1
      obtain ⟨m, hm⟩ : ∃ m, r.len.toNat = m + 1 := ⟨r.len.toNat - 1, by omega⟩
      rw [hm]
      simp [interlinkLoop, BitSet.bit, hbits]
    · rw [if_neg hl]
      have hlen := bits_list_length h1 (by omega)
      have hlist : ((allBits r.bits).drop (0 : UInt8).toNat).take r.len.toNat = r.list := rfl
      have hle : r.len.toNat ≤ (allBits r.bits).length := by
        have := hlen; rw [BitSet.list, List.length_take] at this; omega
      have hcnt : r.list.count false ≤ (allBits r.bits).count false :=
        (List.take_sublist _ _).count_le _
      have h0 : (0 : UInt8).toNat = 0 := rfl
      by_cases hs : (d.drop n).length < 32 * r.list.count false
      · rw [if_pos hs, loop_short r r.len.toNat 0 .prev 0 _ _ (by omega) (by omega)
          (by rw [hlist, List.length_replicate, compressedCount_eq]; omega) (by rw [hlist]; exact hs)]
      · rw [if_neg hs, loop_ok r r.len.toNat 0 .prev 0 _ _ (by omega) (by omega)
          (by rw [hlist, List.length_replicate, compressedCount_eq]; omega) (by rw [hlist]; omega)]
        rw [hlist, compressedCount_eq]
        simp only [List.length_drop] at hs ⊢
        congr 2
        omega

/-! ## C45 -/

/-- C45, the interlink: everything but the hashes survives. Reference list, length and byte count are right; slot `j` of
`Compressed` receives the 32 bytes that follow the `j`-th hash, zero padded. -/
theorem C45_interlink_partial (il : Interlink) (h : il.Ok) (b rest : Bytes) (prev : Interlink) :
    il.enc b = .ok (b ++ il.repeats.len :: il.repeats.bits ++ il.hashBytes) ∧
    ∃ comp, Interlink.dec prev (il.repeats.len :: il.repeats.bits ++ il.hashBytes ++ rest) =
        .ok ((il.repeats.len :: il.repeats.bits ++ il.hashBytes).length,
          ⟨il.repeats, hashRefs il.repeats.list .prev 0, prev.prevHash, comp⟩) ∧
      ∀ j, j < il.compressed.length → comp[j]? = some (BArr.copy 32 ((il.hashBytes ++ rest).drop (32 * (j + 1)))) := by
  have hsz : il.repeats.bits.length = BitSet.size il.repeats.len := by
    rw [bitSet_size_of_lt _ (by have := h.len; omega), h.bits]
  have hfl : il.hashBytes.length = 32 * il.compressed.length := flatten_length _
  refine ⟨?_, ?_⟩
  · simp only [Interlink.enc, BitSet.enc, foldl_hashes, Interlink.hashBytes]
    simp
  · have hcnt : il.repeats.list.count false ≤ (allBits il.repeats.bits).count false :=
      (List.take_sublist _ _).count_le _
    refine ⟨shifted (il.repeats.list.count false) 0
      (List.replicate ((allBits il.repeats.bits).count false) (BArr.zero 32)) (il.hashBytes ++ rest), ?_, ?_⟩
    · rw [interlink_dec, List.append_assoc, BitSet.dec_spec _ hsz]
      simp only
      rw [if_neg (by have := h.len; omega)]
      have hdrop : (il.repeats.len :: il.repeats.bits ++ (il.hashBytes ++ rest)).drop (1 + il.repeats.bits.length) =
          il.hashBytes ++ rest := List.drop_left' (by simp [Nat.add_comm])
      rw [hdrop, if_neg (by rw [List.length_append, hfl, h.comp]; omega)]
      congr 2
      rw [List.length_append, List.length_cons, hfl, h.comp]; omega
    · intro j hj
      rw [shifted_get _ _ _ _ _ (by rw [List.length_replicate]; omega), if_pos (by rw [← h.comp]; omega)]
      simp

/-- C45 is false: the first hash of every interlink with two different first hashes decodes to the second one. -/
theorem C45_violated (il : Interlink) (h : il.Ok) (h0 h1 : Hash32) (hs : List Hash32)
    (hc : il.compressed = h0 :: h1 :: hs) (hne : h0 ≠ h1) (rest : Bytes) (prev : Interlink) :
    ∃ bs n il', il.enc [] = .ok bs ∧ Interlink.dec prev (bs ++ rest) = .ok (n, il') ∧
      il'.compressed[0]? = some h1 ∧ il'.compressed[0]? ≠ il.compressed[0]? := by
  obtain ⟨he, comp, hd, hcomp⟩ := C45_interlink_partial il h [] rest prev
  refine ⟨_, _, ⟨il.repeats, hashRefs il.repeats.list .prev 0, prev.prevHash, comp⟩, he, hd, ?_⟩
  · have h0v := h0.property
    have := hcomp 0 (by rw [hc]; simp)
    have e : (il.hashBytes ++ rest).drop (32 * (0 + 1)) = h1.val ++ ((hs.map (·.val)).flatten ++ rest) := by
      simp only [Interlink.hashBytes, hc, List.map_cons, List.flatten_cons, List.append_assoc]
      exact List.drop_left' h0v
    rw [e, copy_append] at this
    refine ⟨this, ?_⟩
    simp only [this, hc]
    simp
    exact fun e => hne e.symm

/-- C45 is false in the other direction too: a decoded interlink is written back with one hash per 0 bit including the
unused bits of the last byte, so the encoding grows unless those are all 1. -/
theorem C45_reencode_violated (prev il : Interlink) (d : Bytes) (n : Nat) (h : Interlink.dec prev d = .ok (n, il)) :
    ∃ bs, il.enc [] = .ok bs ∧
      bs.length = n + 32 * ((allBits il.repeats.bits).drop il.repeats.len.toNat).count false := by
  rw [interlink_dec] at h
  cases hd : BitSet.dec d with
  | err e => rw [hd] at h; cases h
  | panic => rw [hd] at h; cases h
  | ok p =>
    obtain ⟨m, r⟩ := p
    obtain ⟨hsz, hm, _⟩ := BitSet.dec_ok hd
    rw [hd] at h
    simp only at h
    split at h
    · cases h
    · split at h
      · cases h
      · cases h
        refine ⟨_, rfl, ?_⟩
        simp only [foldl_hashes]
        rw [List.length_append, flatten_length, shifted_length, List.length_replicate]
        have := List.take_append_drop r.len.toNat (allBits r.bits)
        have hc := congrArg (List.count false) this
        rw [List.count_append] at hc
        have hlist : r.list.count false = ((allBits r.bits).take r.len.toNat).count false := rfl
        simp only [List.nil_append, List.length_append, List.length_cons, List.length_nil]
        omega

/-- C45, whole blocks: header, repeat bits, body and length survive; the hashes are shifted as described. -/
theorem C45_block_partial (hdr : headerTy.Val) (il : Interlink) (h : il.Ok) (body : Option bodyTy.Val) (bodyBs : Bytes)
    (hbody : enc (.ptr bodyTy) { optional := true } body = some bodyBs) (prev : blockTy.Val) (rest : Bytes) :
    ∃ bs il', Marshal [] blockTy (hdr, il, body, ()) = .ok bs ∧
      Unmarshal blockTy prev (bs ++ rest) = .ok (hdr, il', body, ()) rest ∧
      il'.repeats = il.repeats ∧ il'.hashes = hashRefs il.repeats.list .prev 0 ∧
      ∀ j, j < il.compressed.length →
        il'.compressed[j]? = some (BArr.copy 32 ((il.hashBytes ++ (bodyBs ++ rest)).drop (32 * (j + 1)))) := by
  obtain ⟨prevH, prevI, prevB, _⟩ := prev
  obtain ⟨hb, hhb⟩ : ∃ hb, enc headerTy {} hdr = some hb := by
    simp only [headerTy, enc, encFields, fieldTags_none]
    exact ⟨_, rfl⟩
  obtain ⟨comp, hd, hcomp⟩ := (C45_interlink_partial il h [] (bodyBs ++ rest) prevI).2
  have hgb : Good (.ptr bodyTy) := by
    simp only [Good]; exact ⟨body_good, rfl⟩
  have hmh := marshal_spec headerTy {} hdr hb [] header_good hhb
  have hmi := (C45_interlink_partial il h ([] ++ hb) [] il).1
  have hmb := marshal_spec (.ptr bodyTy) { optional := true } body bodyBs
    ([] ++ hb ++ il.repeats.len :: il.repeats.bits ++ il.hashBytes) hgb hbody
  refine ⟨hb ++ (il.repeats.len :: il.repeats.bits ++ il.hashBytes ++ bodyBs),
    ⟨il.repeats, hashRefs il.repeats.list .prev 0, prevI.prevHash, comp⟩, ?_, ?_, rfl, rfl, hcomp⟩
  · simp only [Marshal, blockTy]
    rw [marshal]
    simp only [marshalFields, fieldTags_none, fieldTags_optional, hmh]
    have hmi' : marshal (.custom interlink) il ([] ++ hb) {} = _ := hmi
    simp only [hmi', hmb]
    simp
  · simp only [Unmarshal, blockTy]
    rw [decode]
    simp only [decodeFields, fieldTags_none, fieldTags_optional, List.append_assoc]
    rw [decode_spec noLimit (fun _ => rfl) headerTy {} hdr prevH hb _ header_good hhb]
    simp only
    have hd' : interlink.dec prevI (il.repeats.len :: il.repeats.bits ++ (il.hashBytes ++ (bodyBs ++ rest))) =
        .ok ((il.repeats.len :: il.repeats.bits ++ il.hashBytes).length,
          ⟨il.repeats, hashRefs il.repeats.list .prev 0, prevI.prevHash, comp⟩) := by
      rw [← List.append_assoc]; exact hd
    rw [decode]
    simp only [runCustom, hd']
    rw [if_neg (by simp only [List.length_append]; omega)]
    simp only
    have hdrop : (il.repeats.len :: il.repeats.bits ++ (il.hashBytes ++ (bodyBs ++ rest))).drop
        (il.repeats.len :: il.repeats.bits ++ il.hashBytes).length = bodyBs ++ rest := by
      rw [← List.append_assoc, List.drop_left]
    rw [hdrop, decode_spec noLimit (fun _ => rfl) (.ptr bodyTy) { optional := true } body prevB bodyBs rest hgb hbody]
    rfl

/-- An interlink with three positions: new hash, repeat, new hash. -/
def exInterlink (a b : Hash32) : Interlink := ⟨⟨3, [0x40]⟩, [], BArr.zero 32, [a, b]⟩

example (a b : Hash32) : (exInterlink a b).Ok :=
  ⟨by show (3 : UInt8).toNat ≤ 248; decide, by show 1 = ((3 : UInt8).toNat + 7) / 8; decide,
    by show 2 = List.count false (BitSet.list ⟨3, [0x40]⟩); decide⟩
example : enc (.ptr bodyTy) { optional := true } (some (BArr.zero 20, [7], [], [], ())) =
    some (1 :: (List.replicate 20 0 ++ [1, 7] ++ [0, 0] ++ [0, 0])) := by
  simp only [bodyTy, enc, isCustom, encFields, fieldTags_none, fieldTags_u8, fieldTags_u16]
  decide +kernel
example : hashRefs [false, true, false] .prev 0 = [.at 0, .at 0, .at 1] := rfl

end Nimiq.Wire
