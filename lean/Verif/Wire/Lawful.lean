import Verif.Wire.Model
import Verif.Beserial.Props
/-!
# The custom codecs implement their specifications
-/
namespace Nimiq.Wire
open Beserial Beserial.Spec

@[simp] theorem fieldTags_none : fieldTags none = some {} := rfl
@[simp] theorem fieldTags_u8 : fieldTags tagU8 = some { lenTag := some .u8 } := parseTag_lenTag .u8
@[simp] theorem fieldTags_u16 : fieldTags tagU16 = some { lenTag := some .u16 } := parseTag_lenTag .u16
@[simp] theorem fieldTags_optional : fieldTags tagOptional = some { optional := true } := parseTag_optionals 0

/-! ## Nested calls -/

theorem unmarshalAt_spec {t : Ty} (ht : Good t) {v : t.Val} {bs : Bytes} (h : enc t {} v = some bs) (prev : t.Val)
    (n0 : Nat) (rest : Bytes) : unmarshalAt t prev n0 (bs ++ rest) = .ok (n0 + bs.length, v) := by
  have := decode_spec noLimit (fun _ => rfl) t {} v prev bs rest ht h
  simp only [unmarshalAt, Unmarshal, this]
  simp

theorem unmarshalAt_ok {t : Ty} (ht : Good t) {v prev : t.Val} {n0 n : Nat} {d : Bytes}
    (h : unmarshalAt t prev n0 d = .ok (n, v)) :
    ∃ bs rest, enc t {} v = some bs ∧ d = bs ++ rest ∧ n = n0 + bs.length := by
  unfold unmarshalAt at h
  cases hu : Unmarshal t prev d with
  | err e r => simp [hu] at h
  | panic => simp [hu] at h
  | ok v' rest =>
    simp only [hu, Out.ok.injEq, Prod.mk.injEq] at h
    obtain ⟨rfl, rfl⟩ := h
    obtain ⟨bs, hbs, rfl⟩ := decode_canon noLimit t {} v' prev d rest ht hu
    exact ⟨bs, rest, hbs, rfl, by simp⟩

theorem unmarshalAt_ne_panic {t : Ty} (ht : Safe t) (prev : t.Val) (n0 : Nat) (d : Bytes) :
    unmarshalAt t prev n0 d ≠ .panic := by
  have := decode_ne_panic noLimit d.length (fun _ _ => rfl) t {} prev d ht (Nat.le_refl _)
  unfold unmarshalAt
  cases hu : Unmarshal t prev d with
  | err e r => simp
  | panic => exact absurd hu this
  | ok v' rest => simp

theorem lawful_safe {c : Codec} (h : Lawful c) :
    ∀ prev d, c.dec prev d ≠ .panic ∧ ∀ n a, c.dec prev d = .ok (n, a) → n ≤ d.length :=
  fun prev d => ⟨h.total prev d, fun n a e => (h.canon prev a n d e).1⟩

/-! ## BitSet -/

theorem bitSet_size_le (l : UInt8) : BitSet.size l ≤ 31 := by
  unfold BitSet.size
  rw [UInt8.toNat_div]
  have := (l + 7).toNat_lt
  have h8 : (8 : UInt8).toNat = 8 := rfl
  rw [h8]
  omega

theorem BitSet.dec_spec (bs : BitSet) (h : bs.bits.length = BitSet.size bs.len) (rest : Bytes) :
    BitSet.dec (bs.len :: bs.bits ++ rest) = .ok (1 + bs.bits.length, bs) := by
  simp only [BitSet.dec, List.cons_append]
  rw [if_neg (by simp [h]), ← h, List.take_left]

theorem BitSet.dec_ok {d : Bytes} {n : Nat} {bs : BitSet} (h : BitSet.dec d = .ok (n, bs)) :
    bs.bits.length = BitSet.size bs.len ∧ n = 1 + bs.bits.length ∧ ∃ rest, d = bs.len :: bs.bits ++ rest := by
  cases d with
  | nil => simp [BitSet.dec] at h
  | cons l b =>
    simp only [BitSet.dec] at h
    split at h
    · cases h
    · rename_i hl
      simp only [Out.ok.injEq, Prod.mk.injEq] at h
      obtain ⟨rfl, rfl⟩ := h
      have : (b.take (BitSet.size l)).length = BitSet.size l := by rw [List.length_take]; omega
      exact ⟨this, by rw [this], b.drop (BitSet.size l), by simp⟩

theorem BitSet.dec_ne_panic (d : Bytes) : BitSet.dec d ≠ .panic := by
  cases d with
  | nil => simp [BitSet.dec]
  | cons l b => simp only [BitSet.dec]; split <;> simp

theorem bitSet_lawful : Lawful bitSet where
  enc a bs b h := by
    simp only [bitSet] at h ⊢
    split at h
    · cases h; simp [BitSet.enc]
    · cases h
  dec prev a bs rest h := by
    simp only [bitSet] at h ⊢
    split at h
    · rename_i hl
      cases h; rw [BitSet.dec_spec a hl]; simp [Nat.add_comm]
    · cases h
  canon prev a n d h := by
    simp only [bitSet] at h ⊢
    obtain ⟨h1, rfl, rest, rfl⟩ := BitSet.dec_ok h
    rw [if_pos h1]
    refine ⟨by simp; omega, ?_⟩
    have e : (a.len :: a.bits ++ rest).take (1 + a.bits.length) = a.len :: a.bits := by
      rw [Nat.add_comm]; simp
    rw [e]
  total prev d := BitSet.dec_ne_panic d
  min a bs h := by
    simp only [bitSet] at h ⊢
    split at h
    · cases h; simp
    · cases h

/-! ## Hash -/

theorem copy_append {n : Nat} (h : BArr n) (rest : Bytes) : BArr.copy n (h.val ++ rest) = h := by
  apply Subtype.ext
  have hp := h.property
  have e1 : (h.val ++ rest).take n = h.val := List.take_left' hp
  have e2 : n - (h.val ++ rest).length = 0 := by rw [List.length_append]; omega
  simp only [BArr.copy, e1, e2, List.replicate_zero, List.append_nil]

theorem copy_val {n : Nat} {b : Bytes} (h : n ≤ b.length) : (BArr.copy n b).val = b.take n := by
  have e2 : n - b.length = 0 := by omega
  simp only [BArr.copy, e2, List.replicate_zero, List.append_nil]

theorem hash_lawful : Lawful hash where
  enc a bs b h := by
    simp only [hash, Option.some.injEq] at h ⊢
    subst h; simp
  dec prev a bs rest h := by
    simp only [hash, Option.some.injEq] at h ⊢
    subst h
    have := a.bytes.property
    simp only [List.cons_append]
    rw [if_neg (by rw [List.length_append]; omega), copy_append, List.length_cons, this]; rfl
  canon prev a n d h := by
    simp only [hash] at h ⊢
    cases d with
    | nil => simp at h
    | cons x b =>
      simp only at h
      split at h
      · cases h
      · rename_i hl
        simp only [Out.ok.injEq, Prod.mk.injEq] at h
        obtain ⟨rfl, rfl⟩ := h
        refine ⟨by simp; omega, ?_⟩
        simp only [copy_val (show 32 ≤ b.length by omega)]
        rw [Nat.add_comm]; rfl
  total prev d := by
    simp only [hash]
    split
    · simp
    · split <;> simp
  min a bs h := by
    simp only [hash, Option.some.injEq] at h ⊢
    subst h
    have := a.bytes.property
    rw [List.length_cons]; omega

theorem hash_size : ∀ a n b, hash.gsize a = .ok n → ∃ bs : Bytes, bs.length = n ∧ hash.enc a b = .ok (b ++ bs) := by
  intro a n b h
  simp only [hash, Out.ok.injEq] at h
  have := a.bytes.property
  exact ⟨a.algorithm :: a.bytes.val, by rw [List.length_cons]; omega, by simp [hash]⟩

/-! ## MerklePath -/

theorem flatten_length (hs : List Hash32) : ((hs.map (·.val)).flatten).length = 32 * hs.length := by
  induction hs with
  | nil => rfl
  | cons h hs ih =>
    have := h.property
    simp only [List.map_cons, List.flatten_cons, List.length_append, List.length_cons, ih]; omega

theorem readHashes_spec (hs : List Hash32) (rest : Bytes) :
    readHashes hs.length ((hs.map (·.val)).flatten ++ rest) = some (hs, rest) := by
  induction hs with
  | nil => rfl
  | cons h hs ih =>
    have := h.property
    simp only [List.map_cons, List.flatten_cons, List.length_cons, readHashes, List.append_assoc]
    rw [if_neg (by rw [List.length_append]; omega), copy_append]
    have e : ((h.val ++ ((hs.map (·.val)).flatten ++ rest)).drop 32) = (hs.map (·.val)).flatten ++ rest := by
      rw [List.drop_left' this]
    rw [e, ih]

theorem readHashes_ok : ∀ {n : Nat} {b r : Bytes} {hs : List Hash32}, readHashes n b = some (hs, r) →
    hs.length = n ∧ b = (hs.map (·.val)).flatten ++ r := by
  intro n
  induction n with
  | zero =>
    intro b r hs h
    simp only [readHashes, Option.some.injEq, Prod.mk.injEq] at h
    obtain ⟨rfl, rfl⟩ := h
    exact ⟨rfl, rfl⟩
  | succ n ih =>
    intro b r hs h
    simp only [readHashes] at h
    split at h
    · cases h
    · rename_i hl
      cases hr : readHashes n (b.drop 32) with
      | none => simp [hr] at h
      | some p =>
        obtain ⟨hs', r'⟩ := p
        simp only [hr, Option.some.injEq, Prod.mk.injEq] at h
        obtain ⟨rfl, rfl⟩ := h
        obtain ⟨h1, h2⟩ := ih hr
        refine ⟨by simp [h1], ?_⟩
        simp only [List.map_cons, List.flatten_cons, copy_val (show 32 ≤ b.length by omega), List.append_assoc, ← h2]
        simp

theorem foldl_hashes (hs : List Hash32) : ∀ b : Bytes, hs.foldl (fun b h => b ++ h.val) b = b ++ (hs.map (·.val)).flatten := by
  induction hs with
  | nil => intro b; simp
  | cons h hs ih => intro b; simp [ih]

theorem MerklePath.dec_spec (mp : MerklePath) (h1 : mp.branches.bits.length = BitSet.size mp.branches.len)
    (h2 : mp.hashes.length = mp.branches.len.toNat) (rest : Bytes) :
    MerklePath.dec (mp.branches.len :: mp.branches.bits ++ (mp.hashes.map (·.val)).flatten ++ rest) =
      .ok (1 + mp.branches.bits.length + 32 * mp.hashes.length, mp) := by
  unfold MerklePath.dec
  rw [List.append_assoc, BitSet.dec_spec _ h1]
  simp only
  have e : (mp.branches.len :: mp.branches.bits ++ ((mp.hashes.map (·.val)).flatten ++ rest)).drop
      (1 + mp.branches.bits.length) = (mp.hashes.map (·.val)).flatten ++ rest := by
    rw [List.drop_left' (by simp [Nat.add_comm])]
  rw [e, ← h2, readHashes_spec]
  simp only [List.length_append, List.length_cons, flatten_length]
  congr 2
  omega

theorem MerklePath.dec_ok {d : Bytes} {n : Nat} {mp : MerklePath} (h : MerklePath.dec d = .ok (n, mp)) :
    mp.branches.bits.length = BitSet.size mp.branches.len ∧ mp.hashes.length = mp.branches.len.toNat ∧
    n = 1 + mp.branches.bits.length + 32 * mp.hashes.length ∧
    ∃ rest, d = mp.branches.len :: mp.branches.bits ++ (mp.hashes.map (·.val)).flatten ++ rest := by
  unfold MerklePath.dec at h
  cases hb : BitSet.dec d with
  | err e => simp [hb] at h
  | panic => simp [hb] at h
  | ok p =>
    obtain ⟨m, br⟩ := p
    obtain ⟨h1, rfl, rest, rfl⟩ := BitSet.dec_ok hb
    simp only [hb] at h
    have e : (br.len :: br.bits ++ rest).drop (1 + br.bits.length) = rest := by
      rw [List.drop_left' (by simp [Nat.add_comm])]
    rw [e] at h
    cases hr : readHashes br.len.toNat rest with
    | none => simp [hr] at h
    | some q =>
      obtain ⟨hs, r⟩ := q
      obtain ⟨h2, rfl⟩ := readHashes_ok hr
      simp only [hr, Out.ok.injEq, Prod.mk.injEq] at h
      obtain ⟨rfl, rfl⟩ := h
      refine ⟨h1, h2, ?_, r, by simp⟩
      simp only [List.length_append, List.length_cons, flatten_length]
      omega

theorem MerklePath.dec_ne_panic (d : Bytes) : MerklePath.dec d ≠ .panic := by
  unfold MerklePath.dec
  cases hb : BitSet.dec d with
  | err e => simp
  | panic => exact absurd hb (BitSet.dec_ne_panic d)
  | ok p => simp only; split <;> simp

theorem merklePath_lawful : Lawful merklePath where
  enc a bs b h := by
    simp only [merklePath] at h ⊢
    split at h
    · cases h; simp only [MerklePath.enc, BitSet.enc, foldl_hashes, List.append_assoc, List.cons_append, List.nil_append]
    · cases h
  dec prev a bs rest h := by
    simp only [merklePath] at h ⊢
    split at h
    · rename_i hl
      cases h
      rw [MerklePath.dec_spec a hl.1 hl.2]
      simp only [List.length_append, List.length_cons, flatten_length]
      congr 2; omega
    · cases h
  canon prev a n d h := by
    simp only [merklePath] at h ⊢
    obtain ⟨h1, h2, rfl, rest, rfl⟩ := MerklePath.dec_ok h
    rw [if_pos ⟨h1, h2⟩]
    have hl : (a.branches.len :: a.branches.bits ++ (a.hashes.map (·.val)).flatten).length =
        1 + a.branches.bits.length + 32 * a.hashes.length := by
      simp only [List.length_append, List.length_cons, flatten_length]; omega
    refine ⟨by rw [List.length_append, hl]; omega, ?_⟩
    rw [List.take_left' hl]
  total prev d := MerklePath.dec_ne_panic d
  min a bs h := by
    simp only [merklePath] at h ⊢
    split at h
    · cases h; simp
    · cases h

/-! ## Generic types of the package -/

theorem signatureProof_good : Good SignatureProof.ty := by
  simp [SignatureProof.ty, Good, GoodFields, merklePath_lawful]
theorem signatureProof_safe : Safe SignatureProof.ty := by
  simp only [SignatureProof.ty, Safe, SafeFields, fieldTags_none]
  exact ⟨by simp, trivial, by simp, lawful_safe merklePath_lawful, by simp, trivial, trivial⟩

@[simp] theorem SignatureProof.ofVal_toVal (s : SignatureProof) : SignatureProof.ofVal s.toVal = s := rfl
@[simp] theorem SignatureProof.toVal_ofVal (v : SignatureProof.ty.Val) : (SignatureProof.ofVal v).toVal = v := rfl
@[simp] theorem BasicTx.ofVal_toVal (s : BasicTx) : BasicTx.ofVal s.toVal = s := rfl
@[simp] theorem BasicTx.toVal_ofVal (v : BasicTx.ty.Val) : (BasicTx.ofVal v).toVal = v := rfl
@[simp] theorem ExtendedTx.ofVal_toVal (s : ExtendedTx) : ExtendedTx.ofVal s.toVal = s := rfl
@[simp] theorem ExtendedTx.toVal_ofVal (v : ExtendedTx.ty.Val) : (ExtendedTx.ofVal v).toVal = v := rfl
@[simp] theorem BasicAccount.ofVal_toVal (s : BasicAccount) : BasicAccount.ofVal s.toVal = s := rfl
@[simp] theorem BasicAccount.toVal_ofVal (v : BasicAccount.ty.Val) : (BasicAccount.ofVal v).toVal = v := rfl
@[simp] theorem VestingAccount.ofVal_toVal (s : VestingAccount) : VestingAccount.ofVal s.toVal = s := rfl
@[simp] theorem VestingAccount.toVal_ofVal (v : VestingAccount.ty.Val) : (VestingAccount.ofVal v).toVal = v := rfl
@[simp] theorem HTLCAccount.ofVal_toVal (s : HTLCAccount) : HTLCAccount.ofVal s.toVal = s := rfl
@[simp] theorem HTLCAccount.toVal_ofVal (v : HTLCAccount.ty.Val) : (HTLCAccount.ofVal v).toVal = v := rfl

theorem basicTx_good : Good BasicTx.ty := by simp [BasicTx.ty, Good, GoodFields]
theorem basicTx_safe : Safe BasicTx.ty := by simp [BasicTx.ty, Safe, SafeFields]
theorem extendedTx_good : Good ExtendedTx.ty := by simp [ExtendedTx.ty, Good, GoodFields]
theorem extendedTx_safe : Safe ExtendedTx.ty := by simp [ExtendedTx.ty, Safe, SafeFields]
theorem txContent_good : Good TxContent.ty := by simp [TxContent.ty, Good, GoodFields]
theorem basicAccount_good : Good BasicAccount.ty := by simp [BasicAccount.ty, Good, GoodFields]
theorem basicAccount_safe : Safe BasicAccount.ty := by simp [BasicAccount.ty, Safe, SafeFields]
theorem vestingAccount_good : Good VestingAccount.ty := by simp [VestingAccount.ty, Good, GoodFields]
theorem vestingAccount_safe : Safe VestingAccount.ty := by simp [VestingAccount.ty, Safe, SafeFields]
theorem htlcAccount_good : Good HTLCAccount.ty := by simp [HTLCAccount.ty, Good, GoodFields, hash_lawful]
theorem htlcAccount_safe : Safe HTLCAccount.ty := by
  simp only [HTLCAccount.ty, Safe, SafeFields, fieldTags_none]
  simp
  exact fun prev d => lawful_safe hash_lawful prev d

/-! ## WrapTx -/

theorem take_cons_append (x : UInt8) (a r : Bytes) : (x :: (a ++ r)).take (1 + a.length) = x :: a := by
  rw [Nat.add_comm]; simp

theorem wrapTx_lawful : Lawful wrapTx where
  enc a bs b h := by
    simp only [wrapTx] at h ⊢
    cases a with
    | none => cases h
    | some tx =>
      cases tx with
      | basic t =>
        obtain ⟨c, hc, rfl⟩ := Option.map_eq_some_iff.mp h
        simp only [WrapTx.enc, Marshal, Tx.type, marshal_spec _ _ _ _ _ basicTx_good hc]; simp
      | extended t =>
        obtain ⟨c, hc, rfl⟩ := Option.map_eq_some_iff.mp h
        simp only [WrapTx.enc, Marshal, Tx.type, marshal_spec _ _ _ _ _ extendedTx_good hc]; simp
  dec prev a bs rest h := by
    simp only [wrapTx] at h ⊢
    cases a with
    | none => cases h
    | some tx =>
      cases tx with
      | basic t =>
        obtain ⟨c, hc, rfl⟩ := Option.map_eq_some_iff.mp h
        simp only [List.cons_append, WrapTx.dec, if_true, unmarshalAt_spec basicTx_good hc, BasicTx.ofVal_toVal]
        simp [Nat.add_comm]
      | extended t =>
        obtain ⟨c, hc, rfl⟩ := Option.map_eq_some_iff.mp h
        simp only [List.cons_append, WrapTx.dec]
        rw [if_neg (by decide), if_pos trivial, unmarshalAt_spec extendedTx_good hc]
        simp [Nat.add_comm]
  canon prev a n d h := by
    simp only [wrapTx] at h ⊢
    cases d with
    | nil => simp [WrapTx.dec] at h
    | cons x d =>
      simp only [WrapTx.dec] at h
      split at h
      · rename_i hx
        subst hx
        split at h
        · rename_i hu
          cases h
          obtain ⟨bs, rest, hbs, rfl, rfl⟩ := unmarshalAt_ok basicTx_good hu
          simp only [BasicTx.toVal_ofVal, hbs]
          refine ⟨by simp; omega, ?_⟩
          rw [take_cons_append]; rfl
        · cases h
        · cases h
      · split at h
        · rename_i hx
          subst hx
          split at h
          · rename_i hu
            cases h
            obtain ⟨bs, rest, hbs, rfl, rfl⟩ := unmarshalAt_ok extendedTx_good hu
            simp only [ExtendedTx.toVal_ofVal, hbs]
            refine ⟨by simp; omega, ?_⟩
            rw [take_cons_append]; rfl
          · cases h
          · cases h
        · cases h
  total prev d := by
    simp only [wrapTx]
    cases d with
    | nil => simp [WrapTx.dec]
    | cons x d =>
      simp only [WrapTx.dec]
      split
      · split
        · simp
        · simp
        · rename_i hu; exact absurd hu (unmarshalAt_ne_panic basicTx_safe _ _ _)
      · split
        · split
          · simp
          · simp
          · rename_i hu; exact absurd hu (unmarshalAt_ne_panic extendedTx_safe _ _ _)
        · simp
  min a bs h := by
    simp only [wrapTx] at h ⊢
    cases a with
    | none => cases h
    | some tx =>
      cases tx <;>
      · obtain ⟨c, hc, rfl⟩ := Option.map_eq_some_iff.mp h
        simp

/-! ## WrapAccount -/

theorem wrapAccount_lawful : Lawful wrapAccount where
  enc a bs b h := by
    simp only [wrapAccount] at h ⊢
    cases a with
    | none => cases h
    | some acc =>
      cases acc with
      | basic t =>
        obtain ⟨c, hc, rfl⟩ := Option.map_eq_some_iff.mp h
        simp only [WrapAccount.enc, Marshal, Account.type, marshal_spec _ _ _ _ _ basicAccount_good hc]; simp
      | vesting t =>
        obtain ⟨c, hc, rfl⟩ := Option.map_eq_some_iff.mp h
        simp only [WrapAccount.enc, Marshal, Account.type, marshal_spec _ _ _ _ _ vestingAccount_good hc]; simp
      | htlc t =>
        obtain ⟨c, hc, rfl⟩ := Option.map_eq_some_iff.mp h
        simp only [WrapAccount.enc, Marshal, Account.type, marshal_spec _ _ _ _ _ htlcAccount_good hc]; simp
  dec prev a bs rest h := by
    simp only [wrapAccount] at h ⊢
    cases a with
    | none => cases h
    | some acc =>
      cases acc with
      | basic t =>
        obtain ⟨c, hc, rfl⟩ := Option.map_eq_some_iff.mp h
        simp only [List.cons_append, WrapAccount.dec, if_true, unmarshalAt_spec basicAccount_good hc]
        simp [Nat.add_comm]
      | vesting t =>
        obtain ⟨c, hc, rfl⟩ := Option.map_eq_some_iff.mp h
        simp only [List.cons_append, WrapAccount.dec]
        rw [if_neg (by decide), if_pos trivial, unmarshalAt_spec vestingAccount_good hc]
        simp [Nat.add_comm]
      | htlc t =>
        obtain ⟨c, hc, rfl⟩ := Option.map_eq_some_iff.mp h
        simp only [List.cons_append, WrapAccount.dec]
        rw [if_neg (by decide), if_neg (by decide), if_pos trivial, unmarshalAt_spec htlcAccount_good hc]
        simp [Nat.add_comm]
  canon prev a n d h := by
    simp only [wrapAccount] at h ⊢
    cases d with
    | nil => simp [WrapAccount.dec] at h
    | cons x d =>
      simp only [WrapAccount.dec] at h
      split at h
      · rename_i hx
        subst hx
        split at h
        · rename_i hu
          cases h
          obtain ⟨bs, rest, hbs, rfl, rfl⟩ := unmarshalAt_ok basicAccount_good hu
          simp only [BasicAccount.toVal_ofVal, hbs]
          refine ⟨by simp; omega, ?_⟩
          rw [take_cons_append]; rfl
        · cases h
        · cases h
      · split at h
        · rename_i hx
          subst hx
          split at h
          · rename_i hu
            cases h
            obtain ⟨bs, rest, hbs, rfl, rfl⟩ := unmarshalAt_ok vestingAccount_good hu
            simp only [VestingAccount.toVal_ofVal, hbs]
            refine ⟨by simp; omega, ?_⟩
            rw [take_cons_append]; rfl
          · cases h
          · cases h
        · split at h
          · rename_i hx
            subst hx
            split at h
            · rename_i hu
              cases h
              obtain ⟨bs, rest, hbs, rfl, rfl⟩ := unmarshalAt_ok htlcAccount_good hu
              simp only [HTLCAccount.toVal_ofVal, hbs]
              refine ⟨by simp; omega, ?_⟩
              rw [take_cons_append]; rfl
            · cases h
            · cases h
          · cases h
  total prev d := by
    simp only [wrapAccount]
    cases d with
    | nil => simp [WrapAccount.dec]
    | cons x d =>
      simp only [WrapAccount.dec]
      split
      · split
        · simp
        · simp
        · rename_i hu; exact absurd hu (unmarshalAt_ne_panic basicAccount_safe _ _ _)
      · split
        · split
          · simp
          · simp
          · rename_i hu; exact absurd hu (unmarshalAt_ne_panic vestingAccount_safe _ _ _)
        · split
          · split
            · simp
            · simp
            · rename_i hu; exact absurd hu (unmarshalAt_ne_panic htlcAccount_safe _ _ _)
          · simp
  min a bs h := by
    simp only [wrapAccount] at h ⊢
    cases a with
    | none => cases h
    | some acc =>
      cases acc <;>
      · obtain ⟨c, hc, rfl⟩ := Option.map_eq_some_iff.mp h
        simp

/-! ## PeerAddress -/

theorem netAddress_safe : ∀ prev d, netAddress.dec prev d ≠ .panic ∧
    ∀ n a, netAddress.dec prev d = .ok (n, a) → n ≤ d.length := by
  intro prev d
  simp only [netAddress, NetAddress.dec, Unmarshal, decode]
  cases hp : pop (NumKind.u8).size d with
  | none => simp
  | some p =>
    obtain ⟨x, b⟩ := p
    obtain ⟨hx, rfl⟩ := pop_some hp
    simp only
    split
    · split
      · simp
      · simp; omega
    · split
      · split
        · simp
        · simp; omega
      · simp

theorem peerHeader_safe : Safe PeerAddressHeader.ty := by
  simp only [PeerAddressHeader.ty, Safe, SafeFields, fieldTags_none]
  simp
  exact fun prev d => netAddress_safe prev d

theorem peerAddress_dec_fails (prev : PeerAddress) (d : Bytes) : ∃ e, PeerAddress.dec prev d = .err e := by
  unfold PeerAddress.dec
  have hs := decode_ne_panic noLimit d.length (fun _ _ => rfl) PeerAddressHeader.ty {} prev.header.toVal d
    peerHeader_safe (Nat.le_refl _)
  cases hu : Unmarshal PeerAddressHeader.ty prev.header.toVal d with
  | panic => exact absurd hu hs
  | err e r => exact ⟨e, rfl⟩
  | ok v rest =>
    simp only [unmarshalAt, Unmarshal, detailTy, decode]
    split
    · exact ⟨_, rfl⟩
    · split
      · exact ⟨_, rfl⟩
      · exact ⟨_, rfl⟩

theorem peerAddress_lawful : Lawful peerAddress where
  enc a bs b h := by simp [peerAddress] at h
  dec prev a bs rest h := by simp [peerAddress] at h
  canon prev a n d h := by
    obtain ⟨e, he⟩ := peerAddress_dec_fails prev d
    simp only [peerAddress, he] at h
    cases h
  total prev d := by
    obtain ⟨e, he⟩ := peerAddress_dec_fails prev d
    simp [peerAddress, he]
  min a bs h := by simp [peerAddress] at h

theorem accountPruned_good : Good accountPrunedTy := by
  simp [accountPrunedTy, Good, GoodFields, wrapAccount_lawful]
theorem accountPruned_safe : Safe accountPrunedTy := by
  simp only [accountPrunedTy, Safe, SafeFields, fieldTags_none]
  exact ⟨by simp, trivial, by simp, lawful_safe wrapAccount_lawful, trivial⟩

theorem header_good : Good headerTy := by simp [headerTy, Good, GoodFields]
theorem header_safe : Safe headerTy := by simp [headerTy, Safe, SafeFields]
theorem body_good : Good bodyTy := by
  simp only [bodyTy, Good, GoodFields]
  exact ⟨trivial, trivial, ⟨wrapTx_lawful, Nat.le_refl 1⟩, ⟨accountPruned_good, by
    simp [minSize, accountPrunedTy, minFields]; omega⟩, trivial⟩
theorem body_safe : Safe bodyTy := by
  simp only [bodyTy, Safe, SafeFields, fieldTags_none, fieldTags_u8, fieldTags_u16]
  refine ⟨by simp, trivial, by simp, trivial, by simp, lawful_safe wrapTx_lawful, by simp, ?_, trivial⟩
  exact accountPruned_safe

end Nimiq.Wire
