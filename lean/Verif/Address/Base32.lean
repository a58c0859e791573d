import Verif.Address.Model
import Verif.Address.Spec
/-! # Base 32 lemmas -/
namespace Nimiq.Address

theorem forall_u8 {P : UInt8 → Prop} (h : ∀ n : Fin 256, P (UInt8.ofNat n.val)) (c : UInt8) : P c := by
  have := h ⟨c.toNat, c.toNat_lt⟩
  simpa using this

theorem charDigit_digitChar (n : Nat) : charDigit (digitChar n) = some (n % 32) := by
  have h : ∀ m : Fin 32, charDigit (alphabet.getD m.val 0) = some m.val := by decide +kernel
  exact h ⟨n % 32, Nat.mod_lt _ (by decide)⟩

theorem charDigit_some {c : UInt8} {d : Nat} (h : charDigit c = some d) : d < 32 ∧ c = digitChar d := by
  have key : ∀ n : Fin 256, ∀ m, charDigit (UInt8.ofNat n.val) = some m → m < 32 ∧ UInt8.ofNat n.val = digitChar m := by
    have h2 : ∀ n : Fin 256, (match charDigit (UInt8.ofNat n.val) with
      | some m => decide (m < 32 ∧ UInt8.ofNat n.val = digitChar m)
      | none => true) = true := by decide +kernel
    intro n m hm
    have := h2 n
    rw [hm] at this
    simpa using this
  exact forall_u8 (P := fun c => ∀ m, charDigit c = some m → m < 32 ∧ c = digitChar m) key c d h

theorem ofNat_eq {a : UInt8} {n : Nat} (h : n % 256 = a.toNat) : UInt8.ofNat n = a := by
  apply UInt8.toNat_inj.mp
  rw [UInt8.toNat_ofNat']; exact h

/-- Groups of five bytes. -/
theorem five_ind {P : Bytes → Prop} (nil : P []) (step : ∀ a b c d e rest, P rest → P (a :: b :: c :: d :: e :: rest))
    (n : Nat) : ∀ bs : Bytes, bs.length = 5 * n → P bs := by
  induction n with
  | zero => intro bs h; have := List.length_eq_zero_iff.mp h; subst this; exact nil
  | succ n ih =>
    intro bs h
    match bs, h with
    | a :: b :: c :: d :: e :: rest, h =>
      exact step a b c d e rest (ih rest (by simp at h; omega))
    | [], h => simp at h
    | [_], h => simp at h; omega
    | [_,_], h => simp at h; omega
    | [_,_,_], h => simp at h; omega
    | [_,_,_,_], h => simp at h; omega

theorem base32Encode_length (n : Nat) : ∀ bs : Bytes, bs.length = 5 * n → (base32Encode bs).length = 8 * n := by
  induction n with
  | zero => intro bs h; have := List.length_eq_zero_iff.mp h; subst this; rfl
  | succ n ih =>
    intro bs h
    match bs, h with
    | a :: b :: c :: d :: e :: rest, h =>
      have := ih rest (by simp at h; omega)
      simp [base32Encode, this]; omega
    | [], h => simp at h
    | [_], h => simp at h; omega
    | [_,_], h => simp at h; omega
    | [_,_,_], h => simp at h; omega
    | [_,_,_,_], h => simp at h; omega

theorem base32_roundtrip (n : Nat) : ∀ bs : Bytes, bs.length = 5 * n → base32Decode (base32Encode bs) = some bs := by
  refine five_ind (P := fun bs => base32Decode (base32Encode bs) = some bs) rfl ?_ n
  intro a b c d e rest ih
  have ha := a.toNat_lt
  have hb := b.toNat_lt
  have hc := c.toNat_lt
  have hd := d.toNat_lt
  have he := e.toNat_lt
  simp only [base32Encode, List.cons_append, List.nil_append, base32Decode, charDigit_digitChar, Option.bind_eq_bind,
    Option.bind_some, ih, Option.pure_def, Option.some.injEq]
  refine List.cons_eq_cons.mpr ⟨ofNat_eq (by omega), ?_⟩
  refine List.cons_eq_cons.mpr ⟨ofNat_eq (by omega), ?_⟩
  refine List.cons_eq_cons.mpr ⟨ofNat_eq (by omega), ?_⟩
  refine List.cons_eq_cons.mpr ⟨ofNat_eq (by omega), ?_⟩
  refine List.cons_eq_cons.mpr ⟨ofNat_eq (by omega), rfl⟩

theorem digitChar_congr {m n : Nat} (h : m % 32 = n % 32) : digitChar m = digitChar n := by
  simp only [digitChar, h]

theorem base32_canonical (n : Nat) : ∀ cs : Bytes, cs.length = 8 * n → ∀ bs, base32Decode cs = some bs →
    base32Encode bs = cs ∧ bs.length = 5 * n := by
  induction n with
  | zero =>
    intro cs h bs hd
    have := List.length_eq_zero_iff.mp h; subst this
    simp only [base32Decode, Option.some.injEq] at hd; subst hd; exact ⟨rfl, rfl⟩
  | succ n ih =>
    intro cs h bs hd
    match cs, h with
    | c0 :: c1 :: c2 :: c3 :: c4 :: c5 :: c6 :: c7 :: rest, h =>
      simp only [base32Decode, Option.bind_eq_bind, Option.pure_def, Option.bind_eq_some_iff, Option.some.injEq] at hd
      obtain ⟨d0, h0, d1, h1, d2, h2, d3, h3, d4, h4, d5, h5, d6, h6, d7, h7, tail, ht, rfl⟩ := hd
      obtain ⟨l0, rfl⟩ := charDigit_some h0
      obtain ⟨l1, rfl⟩ := charDigit_some h1
      obtain ⟨l2, rfl⟩ := charDigit_some h2
      obtain ⟨l3, rfl⟩ := charDigit_some h3
      obtain ⟨l4, rfl⟩ := charDigit_some h4
      obtain ⟨l5, rfl⟩ := charDigit_some h5
      obtain ⟨l6, rfl⟩ := charDigit_some h6
      obtain ⟨l7, rfl⟩ := charDigit_some h7
      obtain ⟨e1, e2⟩ := ih rest (by simp at h; omega) tail ht
      constructor
      · simp only [List.cons_append, List.nil_append, base32Encode, e1, UInt8.toNat_ofNat']
        refine List.cons_eq_cons.mpr ⟨digitChar_congr (by omega), ?_⟩
        refine List.cons_eq_cons.mpr ⟨digitChar_congr (by omega), ?_⟩
        refine List.cons_eq_cons.mpr ⟨digitChar_congr (by omega), ?_⟩
        refine List.cons_eq_cons.mpr ⟨digitChar_congr (by omega), ?_⟩
        refine List.cons_eq_cons.mpr ⟨digitChar_congr (by omega), ?_⟩
        refine List.cons_eq_cons.mpr ⟨digitChar_congr (by omega), ?_⟩
        refine List.cons_eq_cons.mpr ⟨digitChar_congr (by omega), ?_⟩
        refine List.cons_eq_cons.mpr ⟨digitChar_congr (by omega), rfl⟩
      · simp [e2]; omega
    | [], h => simp at h
    | [_], h => simp at h; omega
    | [_,_], h => simp at h; omega
    | [_,_,_], h => simp at h; omega
    | [_,_,_,_], h => simp at h; omega
    | [_,_,_,_,_], h => simp at h; omega
    | [_,_,_,_,_,_], h => simp at h; omega
    | [_,_,_,_,_,_,_], h => simp at h; omega

/-! ## Relation with the specification: big endian numbers -/

theorem specDigit (c : UInt8) : Spec.alphabet.findIdx? (fun a => a.toNat == c.toNat) = charDigit c := by
  refine forall_u8 (P := fun c => Spec.alphabet.findIdx? (fun a => a.toNat == c.toNat) = charDigit c) ?_ c
  decide +kernel

/-- The characters are exactly the base 32 digits of the big endian number. -/
theorem base32Encode_value (n : Nat) : ∀ bs : Bytes, bs.length = 5 * n → ∀ acc,
    Spec.base32Value acc (base32Encode bs) = some (bs.foldl (fun acc b => acc * 256 + b.toNat) acc) := by
  refine five_ind (P := fun bs => ∀ acc, Spec.base32Value acc (base32Encode bs) =
    some (bs.foldl (fun acc b => acc * 256 + b.toNat) acc)) ?_ ?_ n
  · intro acc; rfl
  · intro a b c d e rest ih acc
    have ha := a.toNat_lt
    have hb := b.toNat_lt
    have hc := c.toNat_lt
    have hd := d.toNat_lt
    have he := e.toNat_lt
    simp only [base32Encode, List.cons_append, List.nil_append, Spec.base32Value, specDigit, charDigit_digitChar, ih,
      List.foldl_cons]
    congr 2
    omega

theorem base32Decode_isSome (n : Nat) : ∀ cs : Bytes, cs.length = 8 * n →
    ((base32Decode cs).isSome = true ↔ ∀ c ∈ cs, (charDigit c).isSome = true) := by
  induction n with
  | zero =>
    intro cs h
    have := List.length_eq_zero_iff.mp h; subst this; simp [base32Decode]
  | succ n ih =>
    intro cs h
    match cs, h with
    | c0 :: c1 :: c2 :: c3 :: c4 :: c5 :: c6 :: c7 :: rest, h =>
      have := ih rest (by simp at h; omega)
      simp only [base32Decode, List.mem_cons, forall_eq_or_imp, ← this]
      constructor
      · intro h
        obtain ⟨bs, hd⟩ := Option.isSome_iff_exists.mp h
        simp only [Option.bind_eq_bind, Option.pure_def, Option.bind_eq_some_iff, Option.some.injEq] at hd
        obtain ⟨d0, h0, d1, h1, d2, h2, d3, h3, d4, h4, d5, h5, d6, h6, d7, h7, tail, ht, rfl⟩ := hd
        simp [h0, h1, h2, h3, h4, h5, h6, h7, ht]
      · simp only [Option.isSome_iff_exists]
        rintro ⟨⟨d0, h0⟩, ⟨d1, h1⟩, ⟨d2, h2⟩, ⟨d3, h3⟩, ⟨d4, h4⟩, ⟨d5, h5⟩, ⟨d6, h6⟩, ⟨d7, h7⟩, ⟨tail, ht⟩⟩
        simp [h0, h1, h2, h3, h4, h5, h6, h7, ht]
    | [], h => simp at h
    | [_], h => simp at h; omega
    | [_,_], h => simp at h; omega
    | [_,_,_], h => simp at h; omega
    | [_,_,_,_], h => simp at h; omega
    | [_,_,_,_,_], h => simp at h; omega
    | [_,_,_,_,_,_], h => simp at h; omega
    | [_,_,_,_,_,_,_], h => simp at h; omega

/-- Fixed length base 32 strings and the numbers they denote. -/
theorem base32Value_lt : ∀ (cs : Bytes) (acc v : Nat), Spec.base32Value acc cs = some v →
    acc * 32 ^ cs.length ≤ v ∧ v < (acc + 1) * 32 ^ cs.length := by
  intro cs
  induction cs with
  | nil => intro acc v h; simp [Spec.base32Value] at h; subst h; simp
  | cons c cs ih =>
    intro acc v h
    simp only [Spec.base32Value, specDigit] at h
    split at h
    · rename_i d hd
      have hlt := (charDigit_some hd).1
      obtain ⟨h1, h2⟩ := ih _ _ h
      simp only [List.length_cons, Nat.pow_succ]
      constructor
      · calc acc * (32 ^ cs.length * 32) = (acc * 32) * 32 ^ cs.length := by
              rw [Nat.mul_comm (32 ^ cs.length), Nat.mul_assoc]
          _ ≤ (acc * 32 + d) * 32 ^ cs.length := Nat.mul_le_mul_right _ (by omega)
          _ ≤ v := h1
      · calc v < (acc * 32 + d + 1) * 32 ^ cs.length := h2
          _ ≤ ((acc + 1) * 32) * 32 ^ cs.length := Nat.mul_le_mul_right _ (by omega)
          _ = (acc + 1) * (32 ^ cs.length * 32) := by rw [Nat.mul_comm (32 ^ cs.length), Nat.mul_assoc]
    · cases h

end Nimiq.Address
