import Verif.Address.Props
/-!
# C92: which strings mean the same address
-/
namespace Nimiq.Address
open Spec

/-- The decimal digits of a number below 100, as ASCII. -/
def twoDigits (d : Nat) : Bytes := [UInt8.ofNat (0x30 + d / 10), UInt8.ofNat (0x30 + d % 10)]

/-- C92. All strings that decode to the same address agree in the last 32 characters: with each other and with Encode's. -/
theorem C92_data (s a : Bytes) (h : decode s = .ok a) : (noSpaces s).drop 4 = (noSpaces (encode a)).drop 4 := by
  have ha := ((C17_accepts_iff s a).mp h).2.2.2.2.1
  obtain ⟨hl, _, _, _, hb⟩ := (decode_iff s a).mp h
  obtain ⟨vs, _, hn, _⟩ := encode_noSpaces a ha
  rw [hn]
  exact ((base32_canonical 4 _ (by simp [hl]) a hb).1).symm

example : (noSpaces (encode (List.replicate 20 7))).drop 4 = (noSpaces (encode (List.replicate 20 7))).drop 4 :=
  C92_data _ _ (C15_decode_encode _ rfl)

theorem checksum_two (data : Bytes) (vs : List Nat) (hvs : values data = some vs) (d : Nat) (hd : d < 100) :
    checksum ([0x4E, 0x51] ++ twoDigits d ++ data) = some ((number (vs ++ [23, 26]) * 100 + d) % 97) := by
  have hv : ∀ d : Fin 100, values (twoDigits d.val) = some [d.val / 10, d.val % 10] := by decide +kernel
  have hc := hv ⟨d, hd⟩
  simp only at hc
  unfold checksum rearrange
  have hlen : ([0x4E, 0x51] ++ twoDigits d).length = 4 := rfl
  rw [List.drop_append_of_le_length (by omega), List.take_append_of_le_length (by omega)]
  rw [List.drop_of_length_le (by omega), List.take_of_length_le (by omega), List.nil_append, values_append, hvs, values_append, hc]
  have e1 : values [0x4E, 0x51] = some [23, 26] := by decide
  rw [e1]
  simp only [Option.bind_some, Option.map_some, List.cons_append, List.nil_append]
  have : number (vs ++ [23, 26, d / 10, d % 10]) = number (vs ++ [23, 26]) * 100 + d := by
    have e : vs ++ [23, 26, d / 10, d % 10] = (vs ++ [23, 26]) ++ [d / 10, d % 10] := by simp
    rw [e]
    generalize vs ++ [23, 26] = l
    unfold number
    rw [List.foldl_append]
    simp only [List.foldl_cons, List.foldl_nil, push]
    rw [if_pos (by omega), if_pos (by omega)]
    omega
  rw [this]

/-- C92. `NQ`, two digits and the 32 characters of an address mean that address iff the number of the two digits is, modulo
97, the number Encode writes, which is between 2 and 98. -/
theorem C92_nq_iff (a : Bytes) (ha : a.length = 20) : ∃ c, 2 ≤ c ∧ c ≤ 98 ∧
    noSpaces (encode a) = [0x4E, 0x51] ++ twoDigits c ++ (noSpaces (encode a)).drop 4 ∧
    ∀ d, d < 100 → (decode ([0x4E, 0x51] ++ twoDigits d ++ (noSpaces (encode a)).drop 4) = .ok a ↔ d % 97 = c % 97) := by
  obtain ⟨vs, hvs, hn, _⟩ := encode_noSpaces a ha
  have hdrop : (noSpaces (encode a)).drop 4 = base32Encode a := by rw [hn]; rfl
  have hlen : (base32Encode a).length = 32 := base32Encode_length 4 a ha
  have hr : number (vs ++ [23, 26, 0, 0]) % 97 < 97 := Nat.mod_lt _ (by decide)
  have hns : ∀ c ∈ base32Encode a, c ≠ 0x20 := by
    intro c hc hx
    have := base32Encode_mem 4 a ha c hc
    rw [hx] at this
    revert this; decide
  refine ⟨98 - number (vs ++ [23, 26, 0, 0]) % 97, by omega, by omega, ?_, fun d hd => ?_⟩
  · rw [hdrop, hn]; rfl
  have hk := checksum_header _ vs hvs 0x4E 0x51 23 26 (by decide) (by decide)
  have hk' : checkDigits (number (vs ++ [23, 26, 0, 0]) % 97) = twoDigits (98 - number (vs ++ [23, 26, 0, 0]) % 97) := rfl
  rw [hk'] at hk
  have hc98 : 98 - number (vs ++ [23, 26, 0, 0]) % 97 ≤ 98 := by omega
  generalize 98 - number (vs ++ [23, 26, 0, 0]) % 97 = c at hk hc98 ⊢
  rw [checksum_two _ vs hvs c (by omega)] at hk
  rw [hdrop]
  have hne : ∀ d : Fin 100, ∀ x ∈ twoDigits d.val, x ≠ 0x20 := by decide +kernel
  have hsp : noSpaces ([0x4E, 0x51] ++ twoDigits d ++ base32Encode a) = [0x4E, 0x51] ++ twoDigits d ++ base32Encode a := by
    unfold noSpaces
    rw [List.filter_eq_self]
    intro x hx
    rw [List.mem_append, List.mem_append] at hx
    rcases hx with (hx | hx) | hx
    · revert hx; revert x; decide
    · simpa using hne ⟨d, hd⟩ x hx
    · simpa using hns x hx
  rw [decode_iff, hsp, checksum_two _ vs hvs d hd]
  have hlast : ([0x4E, 0x51] ++ twoDigits d ++ base32Encode a).getLast? ≠ some 0x20 := by
    intro hx
    have := List.mem_of_getLast? hx
    rw [← hsp] at this
    simp [noSpaces] at this
  have h1 := Option.some.inj hk
  constructor
  · rintro ⟨_, _, _, h2, _⟩
    have h2 := Option.some.inj h2
    omega
  · intro h
    refine ⟨by simp [hlen, twoDigits], hlast, .inl rfl, congrArg some (by omega), base32_roundtrip 4 a ha⟩

example := C92_nq_iff (List.replicate 20 7) rfl

/-- C92. So an address whose check digits are 03 to 96 has one spelling of this kind, and the others have two: 02 and 99,
97 and 00, 98 and 01 mean the same. -/
theorem C92_aliases (a : Bytes) (ha : a.length = 20) (c : Nat) (hc : c < 100)
    (he : noSpaces (encode a) = [0x4E, 0x51] ++ twoDigits c ++ (noSpaces (encode a)).drop 4) (d : Nat) (hd : d < 100) :
    decode ([0x4E, 0x51] ++ twoDigits d ++ (noSpaces (encode a)).drop 4) = .ok a ↔
      d = c ∨ (c = 2 ∧ d = 99) ∨ (c = 97 ∧ d = 0) ∨ (c = 98 ∧ d = 1) := by
  obtain ⟨c', h1, h2, h3, h4⟩ := C92_nq_iff a ha
  have : c = c' := by
    rw [h3] at he
    have hinj : ∀ x y : Fin 100, twoDigits x.val = twoDigits y.val → x = y := by decide +kernel
    have e : twoDigits c' = twoDigits c := by
      have := congrArg (fun l => (l.drop 2).take 2) he
      simpa [twoDigits] using this
    exact congrArg Fin.val (hinj ⟨c, hc⟩ ⟨c', by omega⟩ e.symm)
  subst this
  rw [h4 d hd]
  omega

/-- The hypotheses are met by every address. -/
example (a : Bytes) (ha : a.length = 20) : ∃ c, c < 100 ∧
    noSpaces (encode a) = [0x4E, 0x51] ++ twoDigits c ++ (noSpaces (encode a)).drop 4 := by
  obtain ⟨c, _, h1, h2, _⟩ := C92_nq_iff a ha
  exact ⟨c, by omega, h2⟩

/-- C92 is false of the code: this address has check digits 97, and the same string with 00 decodes to it too. -/
theorem C92_one_spelling_violated : ∃ s s' a, noSpaces s ≠ noSpaces s' ∧ s.take 2 = [0x4E, 0x51] ∧ s'.take 2 = [0x4E, 0x51] ∧
    decode s = .ok a ∧ decode s' = .ok a := by
  refine ⟨[0x4E, 0x51, 0x39, 0x37] ++ List.replicate 31 0x30 ++ [0x54], [0x4E, 0x51, 0x30, 0x30] ++ List.replicate 31 0x30 ++ [0x54],
    List.replicate 19 0 ++ [27], by decide +kernel, by decide, by decide, ?_, ?_⟩ <;>
  · rw [decode_iff]
    refine ⟨by decide +kernel, by decide +kernel, by decide +kernel, by decide +kernel, by decide +kernel⟩

end Nimiq.Address
