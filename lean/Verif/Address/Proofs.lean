import Verif.Address.Check
/-! # Decode / Encode characterisations -/
namespace Nimiq.Address
open Spec

theorem getLast_noSpaces {s : Bytes} (h : noSpaces s = []) (hne : s ≠ []) : s.getLast? = some 0x20 := by
  have hl := List.getLast?_eq_some_getLast hne
  have hm := List.getLast_mem hne
  have : ∀ x ∈ s, x = 0x20 := by
    intro x hx
    apply Classical.byContradiction
    intro hx2
    have : x ∈ noSpaces s := by simp [noSpaces, hx, hx2]
    rw [h] at this; simp at this
  rw [hl, this _ hm]

theorem truncateLoop_spec (s : Bytes) (room : Nat) (out : Bytes) :
    truncateLoop s room out =
      if (noSpaces s).length = room ∧ s.getLast? ≠ some 0x20 then .ok (out ++ noSpaces s) else .error .length := by
  induction s generalizing room out with
  | nil =>
    unfold truncateLoop
    by_cases h : room = 0
    · subst h; simp [noSpaces]
    · rw [if_pos h, if_neg (by simp [noSpaces]; omega)]
  | cons c rest ih =>
    unfold truncateLoop
    by_cases hr : room = 0
    · rw [if_pos hr, if_neg]
      rintro ⟨h1, h2⟩
      rw [hr] at h1
      exact h2 (getLast_noSpaces (List.length_eq_zero_iff.mp h1) (by simp))
    · rw [if_neg hr]
      by_cases hc : c = 0x20
      · subst hc
        rw [if_neg (by simp), ih]
        have e : noSpaces (0x20 :: rest) = noSpaces rest := by simp [noSpaces]
        rw [e]
        cases rest with
        | nil => simp [noSpaces]; omega
        | cons d rest => rw [List.getLast?_cons_cons]
      · rw [if_pos hc, ih]
        have e : noSpaces (c :: rest) = c :: noSpaces rest := by simp [noSpaces, hc]
        rw [e]
        have hl : (c :: rest).getLast? ≠ some 0x20 ↔ rest.getLast? ≠ some 0x20 := by
          cases rest with
          | nil => simp [hc]
          | cons d rest => rw [List.getLast?_cons_cons]
        rw [List.length_cons]
        by_cases hx : (noSpaces rest).length = room - 1 ∧ rest.getLast? ≠ some 0x20
        · rw [if_pos hx, if_pos ⟨by omega, hl.mpr hx.2⟩]; simp
        · rw [if_neg hx, if_neg (by rintro ⟨a, b⟩; exact hx ⟨by omega, hl.mp b⟩)]

theorem truncateWhitespace_spec (s : Bytes) :
    truncateWhitespace s = if (noSpaces s).length = 36 ∧ s.getLast? ≠ some 0x20 then .ok (noSpaces s) else .error .length := by
  rw [truncateWhitespace, truncateLoop_spec]; rfl

theorem ofNat_eq_one {v : Nat} (h : v < 97) : UInt8.ofNat v = 1 ↔ v = 1 := by
  constructor
  · intro hx
    have := congrArg UInt8.toNat hx
    rw [UInt8.toNat_ofNat', UInt8.toNat_one] at this
    omega
  · rintro rfl; rfl

theorem getD_eq_getElem? (t : Bytes) (i : Nat) (hi : i < t.length) (c : UInt8) : t.getD i 0 = c ↔ t[i]? = some c := by
  simp [hi]

theorem foldl_be_inj (n : Nat) : ∀ (a b : Bytes), a.length = n → b.length = n → ∀ x y,
    a.foldl (fun acc b => acc * 256 + b.toNat) x = b.foldl (fun acc b => acc * 256 + b.toNat) y → x = y ∧ a = b := by
  induction n with
  | zero =>
    intro a b ha hb x y h
    have := List.length_eq_zero_iff.mp ha
    have := List.length_eq_zero_iff.mp hb
    subst a; subst b
    exact ⟨h, rfl⟩
  | succ n ih =>
    intro a b ha hb x y h
    cases a with
    | nil => simp at ha
    | cons c a =>
      cases b with
      | nil => simp at hb
      | cons d b =>
        simp only [List.foldl_cons] at h
        obtain ⟨h1, h2⟩ := ih a b (by simpa using ha) (by simpa using hb) _ _ h
        have hc := c.toNat_lt
        have hd := d.toNat_lt
        refine ⟨by omega, ?_⟩
        rw [h2, UInt8.toNat_inj.mp (show c.toNat = d.toNat by omega)]

theorem beValue_inj {a b : Bytes} (h : a.length = b.length) (hv : beValue a = beValue b) : a = b :=
  (foldl_be_inj b.length a b h rfl 0 0 hv).2

theorem base32Value_digits : ∀ (cs : Bytes) (acc v : Nat), base32Value acc cs = some v → ∀ c ∈ cs, (charDigit c).isSome = true := by
  intro cs
  induction cs with
  | nil => intro _ _ _ c hc; simp at hc
  | cons c cs ih =>
    intro acc v h x hx
    simp only [base32Value, specDigit] at h
    split at h
    · rename_i d hd
      rcases List.mem_cons.mp hx with rfl | hx
      · rw [hd]; rfl
      · exact ih _ _ h x hx
    · cases h

theorem base32Decode_iff (cs a : Bytes) (hl : cs.length = 32) :
    base32Decode cs = some a ↔ a.length = 20 ∧ base32Value 0 cs = some (beValue a) := by
  constructor
  · intro h
    obtain ⟨h1, h2⟩ := base32_canonical 4 cs hl a h
    refine ⟨h2, ?_⟩
    rw [← h1]; exact base32Encode_value 4 a h2 0
  · rintro ⟨h1, h2⟩
    have h3 := (base32Decode_isSome 4 cs hl).mpr (base32Value_digits cs 0 _ h2)
    obtain ⟨b, hb⟩ := Option.isSome_iff_exists.mp h3
    obtain ⟨e1, e2⟩ := base32_canonical 4 cs hl b hb
    have h4 := base32Encode_value 4 b e2 0
    rw [e1, h2] at h4
    injection h4 with h4
    rw [hb, beValue_inj (by omega) h4]

theorem decode_iff (s a : Bytes) : decode s = .ok a ↔
    (noSpaces s).length = 36 ∧ s.getLast? ≠ some 0x20 ∧
    ((noSpaces s)[0]? = some 0x4E ∨ (noSpaces s)[1]? = some 0x51) ∧
    checksum (noSpaces s) = some 1 ∧ base32Decode ((noSpaces s).drop 4) = some a := by
  unfold decode
  rw [truncateWhitespace_spec]
  by_cases h : (noSpaces s).length = 36 ∧ s.getLast? ≠ some 0x20
  · rw [if_pos h]
    simp only
    rw [addressCheck_spec, ← getD_eq_getElem? _ 0 (by omega), ← getD_eq_getElem? _ 1 (by omega)]
    by_cases hc : (noSpaces s).getD 0 0 ≠ 0x4E ∧ (noSpaces s).getD 1 0 ≠ 0x51
    · rw [if_pos hc]
      simp only [reduceCtorEq, false_iff]
      rintro ⟨_, _, h3, _⟩
      exact h3.elim hc.1 hc.2
    · rw [if_neg hc]
      have hc' : (noSpaces s).getD 0 0 = 0x4E ∨ (noSpaces s).getD 1 0 = 0x51 := by
        apply Classical.byContradiction; intro hx
        exact hc ⟨fun h => hx (Or.inl h), fun h => hx (Or.inr h)⟩
      cases hk : checksum (noSpaces s) with
      | none => simp
      | some v =>
        have hv := checksum_lt hk
        simp only [ne_eq, ofNat_eq_one hv, Option.some.injEq]
        by_cases h1 : v = 1
        · subst h1
          simp only [not_true_eq_false, if_false]
          cases hb : base32Decode ((noSpaces s).drop 4) with
          | none => simp
          | some b =>
            simp only [Except.ok.injEq, Option.some.injEq]
            exact ⟨fun e => ⟨h.1, h.2, hc', trivial, e⟩, fun e => e.2.2.2.2⟩
        · simp [h1]
  · rw [if_neg h]
    simp only [reduceCtorEq, false_iff]
    rintro ⟨h1, h2, _⟩
    exact h ⟨h1, h2⟩

/-- `Decode` never hits the panic outcome. -/
theorem decode_no_panic (s : Bytes) : decode s ≠ .error .goPanic := by
  unfold decode
  rw [truncateWhitespace_spec]
  split
  · rename_i h; split at h <;> simp at h; subst h; simp
  · rw [addressCheck_spec]
    split
    · simp
    · split
      · rename_i h; split at h <;> simp at h; subst h; simp
      · split
        · simp
        · split <;> simp

/-! ## Encode -/

theorem digitChar_ne_space (n : Nat) : digitChar n ≠ 0x20 := by
  have h : ∀ m : Fin 32, alphabet.getD m.val 0 ≠ 0x20 := by decide
  exact h ⟨n % 32, Nat.mod_lt _ (by decide)⟩

theorem digitChar_mem (n : Nat) : digitChar n ∈ alphabet := by
  have h : ∀ m : Fin 32, alphabet.getD m.val 0 ∈ alphabet := by decide
  exact h ⟨n % 32, Nat.mod_lt _ (by decide)⟩

theorem base32Encode_mem (n : Nat) : ∀ bs : Bytes, bs.length = 5 * n → ∀ c ∈ base32Encode bs, c ∈ alphabet := by
  refine five_ind (P := fun bs => ∀ c ∈ base32Encode bs, c ∈ alphabet) ?_ ?_ n
  · intro c hc; simp [base32Encode] at hc
  · intro a b c d e rest ih x hx
    simp only [base32Encode, List.cons_append, List.nil_append, List.mem_cons] at hx
    rcases hx with h | h | h | h | h | h | h | h | h
    · rw [h]; exact digitChar_mem _
    · rw [h]; exact digitChar_mem _
    · rw [h]; exact digitChar_mem _
    · rw [h]; exact digitChar_mem _
    · rw [h]; exact digitChar_mem _
    · rw [h]; exact digitChar_mem _
    · rw [h]; exact digitChar_mem _
    · rw [h]; exact digitChar_mem _
    · exact ih x h

theorem alphabet_charVal {c : UInt8} (h : c ∈ alphabet) : ∃ v, charVal c = some v := by
  have : ∀ c ∈ alphabet, (charVal c).isSome = true := by decide
  exact Option.isSome_iff_exists.mp (this c h)

theorem values_of_mem {cs : Bytes} (h : ∀ c ∈ cs, ∃ v, charVal c = some v) : ∃ vs, values cs = some vs := by
  induction cs with
  | nil => exact ⟨[], rfl⟩
  | cons c cs ih =>
    obtain ⟨v, hv⟩ := h c (by simp)
    obtain ⟨vs, hvs⟩ := ih (fun x hx => h x (by simp [hx]))
    exact ⟨v :: vs, by simp [values, hv, hvs]⟩

theorem spaced_noSpaces (k : Nat) (cs : Bytes) (hl : cs.length = 4 * k) (hns : ∀ c ∈ cs, c ≠ 0x20) :
    noSpaces (spaced k cs) = cs := by
  induction k generalizing cs with
  | zero => have := List.length_eq_zero_iff.mp hl; subst this; rfl
  | succ k ih =>
    have h1 : noSpaces (cs.take 4) = cs.take 4 := by
      rw [noSpaces, List.filter_eq_self]
      intro c hc; simpa using hns c (List.mem_of_mem_take hc)
    have h2 := ih (cs.drop 4) (by simp; omega) (fun c hc => hns c (List.mem_of_mem_drop hc))
    have : noSpaces (spaced (k+1) cs) = noSpaces (cs.take 4) ++ noSpaces (spaced k (cs.drop 4)) := by
      simp [spaced, noSpaces]
    rw [this, h1, h2, List.take_append_drop]

theorem spaced_length (k : Nat) (cs : Bytes) (hl : cs.length = 4 * k) : (spaced k cs).length = 5 * k := by
  induction k generalizing cs with
  | zero => rfl
  | succ k ih =>
    simp only [spaced, List.length_append, List.length_cons, ih (cs.drop 4) (by simp; omega), List.length_take]
    omega

theorem spaced_last (k : Nat) (cs : Bytes) (hk : k ≠ 0) (hl : cs.length = 4 * k) (hns : ∀ c ∈ cs, c ≠ 0x20) (p : Bytes) :
    (p ++ spaced k cs).getLast? ≠ some 0x20 := by
  induction k generalizing cs p with
  | zero => exact absurd rfl hk
  | succ k ih =>
    cases k with
    | zero =>
      have : cs.take 4 = cs := List.take_of_length_le (by omega)
      simp only [spaced, this, List.append_nil]
      have hne : cs ≠ [] := by intro h; subst h; simp at hl
      rw [show p ++ (32 :: cs) = (p ++ [32]) ++ cs by simp, List.getLast?_append,
        List.getLast?_eq_some_getLast hne, Option.some_or]
      intro h; injection h with h
      exact hns _ (List.getLast_mem hne) h
    | succ k =>
      have := ih (cs.drop 4) (by omega) (by simp; omega) (fun c hc => hns c (List.mem_of_mem_drop hc))
        (p ++ (32 :: cs.take 4))
      simpa [spaced] using this

/-- The two check digits for remainder `r`. -/
def checkDigits (r : Nat) : Bytes := [UInt8.ofNat (0x30 + (98 - r) / 10), UInt8.ofNat (0x30 + (98 - r) % 10)]

theorem encode_eq (a : Bytes) (ha : a.length = 20) : ∃ vs, values (base32Encode a) = some vs ∧
    encode a = [0x4E, 0x51] ++ checkDigits (number (vs ++ [23, 26, 0, 0]) % 97) ++ spaced 8 (base32Encode a) := by
  obtain ⟨vs, hvs⟩ := values_of_mem (fun c hc => alphabet_charVal (base32Encode_mem 4 a ha c hc))
  refine ⟨vs, hvs, ?_⟩
  have hck : checksum ([0x4E, 0x51, 0x30, 0x30] ++ base32Encode a) = some (number (vs ++ [23, 26, 0, 0]) % 97) := by
    unfold checksum rearrange
    simp only [List.cons_append, List.nil_append, List.drop_succ_cons, List.drop_zero, List.take_succ_cons, List.take_zero]
    rw [values_append, hvs, show values [0x4E, 0x51, 0x30, 0x30] = some [23, 26, 0, 0] by decide]
    rfl
  unfold encode
  simp only [addressCheck_spec, hck]
  have hr : number (vs ++ [23, 26, 0, 0]) % 97 < 97 := Nat.mod_lt _ (by decide)
  generalize number (vs ++ [23, 26, 0, 0]) % 97 = r at *
  have hd : [0x30 + ((98 - UInt8.ofNat r) % 100 / 10), 0x30 + (98 - UInt8.ofNat r) % 10] = checkDigits r := by
    have : ∀ r : Fin 97, [0x30 + ((98 - UInt8.ofNat r.val) % 100 / 10), 0x30 + (98 - UInt8.ofNat r.val) % 10] = checkDigits r.val := by
      decide +kernel
    exact this ⟨r, hr⟩
  rw [hd]
  simp

theorem checkDigits_values (r : Nat) (hr : r < 97) :
    values (checkDigits r) = some [(98 - r) / 10, (98 - r) % 10] ∧ (∀ c ∈ checkDigits r, c ≠ 0x20) := by
  have : ∀ r : Fin 97, values (checkDigits r.val) = some [(98 - r.val) / 10, (98 - r.val) % 10] ∧
      (∀ c ∈ checkDigits r.val, c ≠ 0x20) := by decide +kernel
  exact this ⟨r, hr⟩

theorem number_check (vs : List Nat) (h1 h2 : Nat) :
    ∀ r, r = number (vs ++ [h1, h2, 0, 0]) % 97 → number (vs ++ [h1, h2, (98 - r) / 10, (98 - r) % 10]) % 97 = 1 := by
  intro r hr
  have hlt : r < 97 := by rw [hr]; exact Nat.mod_lt _ (by decide)
  simp only [number, List.foldl_append, List.foldl_cons, List.foldl_nil] at *
  generalize push (push (List.foldl push 0 vs) h1) h2 = x at *
  unfold push at *
  rw [if_pos (by omega), if_pos (by omega)] at *
  omega

/-- Any header of two alphanumeric characters with the right check digits gives checksum 1. -/
theorem checksum_header (data : Bytes) (vs : List Nat) (hvs : values data = some vs) (c0 c1 : UInt8) (h1 h2 : Nat)
    (e1 : charVal c0 = some h1) (e2 : charVal c1 = some h2) :
    checksum ([c0, c1] ++ checkDigits (number (vs ++ [h1, h2, 0, 0]) % 97) ++ data) = some 1 := by
  have hr : number (vs ++ [h1, h2, 0, 0]) % 97 < 97 := Nat.mod_lt _ (by decide)
  have hc := (checkDigits_values _ hr).1
  have hn := number_check vs h1 h2 _ rfl
  generalize number (vs ++ [h1, h2, 0, 0]) % 97 = r at *
  unfold checksum rearrange
  have hlen : ([c0, c1] ++ checkDigits r).length = 4 := rfl
  rw [List.drop_append_of_le_length (by omega), List.take_append_of_le_length (by omega)]
  rw [List.drop_of_length_le (by omega), List.take_of_length_le (by omega), List.nil_append, values_append, hvs, values_append, hc]
  simp only [values, e1, e2, Option.bind_some, Option.map_some, List.cons_append, List.nil_append]
  rw [hn]

theorem encode_noSpaces (a : Bytes) (ha : a.length = 20) : ∃ vs, values (base32Encode a) = some vs ∧
    noSpaces (encode a) = [0x4E, 0x51] ++ checkDigits (number (vs ++ [23, 26, 0, 0]) % 97) ++ base32Encode a ∧
    (encode a).getLast? ≠ some 0x20 := by
  obtain ⟨vs, hvs, he⟩ := encode_eq a ha
  have hns : ∀ c ∈ base32Encode a, c ≠ 0x20 := by
    intro c hc hx
    have := base32Encode_mem 4 a ha c hc
    rw [hx] at this
    revert this; decide
  have hl : (base32Encode a).length = 4 * 8 := base32Encode_length 4 a ha
  have hr : number (vs ++ [23, 26, 0, 0]) % 97 < 97 := Nat.mod_lt _ (by decide)
  refine ⟨vs, hvs, ?_, ?_⟩
  · rw [he]
    unfold noSpaces
    rw [List.filter_append, List.filter_append]
    have := spaced_noSpaces 8 _ hl hns
    unfold noSpaces at this
    rw [this]
    congr 1
    congr 1
    rw [List.filter_eq_self]
    intro c hc; simpa using (checkDigits_values _ hr).2 c hc
  · rw [he]
    exact spaced_last 8 _ (by decide) hl hns _

end Nimiq.Address
