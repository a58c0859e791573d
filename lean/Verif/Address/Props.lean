import Verif.Address.Detect
/-!
# Properties C15–C22: user friendly addresses

Specification: `Verif/Address/Spec.lean`.
-/
namespace Nimiq.Address
open Spec

/-- **C15**: decode inverts encode. -/
theorem C15_decode_encode (a : Bytes) (ha : a.length = 20) : decode (encode a) = .ok a := by
  obtain ⟨vs, hvs, hn, hl⟩ := encode_noSpaces a ha
  have hlen : (base32Encode a).length = 32 := base32Encode_length 4 a ha
  rw [decode_iff, hn]
  refine ⟨by simp [hlen, checkDigits], hl, Or.inl rfl, checksum_header _ vs hvs _ _ 23 26 (by decide) (by decide), ?_⟩
  exact base32_roundtrip 4 a ha

example : decode (encode (List.replicate 20 7)) = .ok (List.replicate 20 7) := C15_decode_encode _ rfl

/-- **C16**: format of the encoding: `NQ`, two check digits, eight groups of a space and four alphabet characters whose
base 32 value is the address read as a big endian number; 44 characters. -/
theorem C16_format (a : Bytes) (ha : a.length = 20) : ∃ (d1 d2 : UInt8) (groups : List Bytes),
    encode a = ascii "NQ" ++ [d1, d2] ++ groups.flatMap (fun g => ascii " " ++ g) ∧
    (encode a).length = 44 ∧
    (48 ≤ d1.toNat ∧ d1.toNat ≤ 57) ∧ (48 ≤ d2.toNat ∧ d2.toNat ≤ 57) ∧
    groups.length = 8 ∧ (∀ g ∈ groups, g.length = 4) ∧
    (∀ g ∈ groups, ∀ c ∈ g, ∃ x ∈ Spec.alphabet, x.toNat = c.toNat) ∧
    base32Value 0 groups.flatten = some (beValue a) := by
  obtain ⟨vs, hvs, he⟩ := encode_eq a ha
  have hlen : (base32Encode a).length = 4 * 8 := base32Encode_length 4 a ha
  have hr : number (vs ++ [23, 26, 0, 0]) % 97 < 97 := Nat.mod_lt _ (by decide)
  have hdig : ∀ r : Fin 97, (48 ≤ (UInt8.ofNat (0x30 + (98 - r.val) / 10)).toNat ∧ (UInt8.ofNat (0x30 + (98 - r.val) / 10)).toNat ≤ 57) ∧
      (48 ≤ (UInt8.ofNat (0x30 + (98 - r.val) % 10)).toNat ∧ (UInt8.ofNat (0x30 + (98 - r.val) % 10)).toNat ≤ 57) := by
    decide +kernel
  have hd := hdig ⟨_, hr⟩
  have hmem : ∀ c ∈ base32Encode a, ∃ x ∈ Spec.alphabet, x.toNat = c.toNat := by
    intro c hc
    have : ∀ c ∈ alphabet, ∃ x ∈ Spec.alphabet, x.toNat = c.toNat := by decide
    exact this c (base32Encode_mem 4 a ha c hc)
  have hval := base32Encode_value 4 a ha 0
  have hgr : ∀ (k : Nat) (cs : Bytes), cs.length = 4 * k → ∃ gs : List Bytes, spaced k cs = gs.flatMap (fun g => ascii " " ++ g) ∧
      gs.length = k ∧ (∀ g ∈ gs, g.length = 4) ∧ gs.flatten = cs := by
    intro k
    induction k with
    | zero => intro cs h; have := List.length_eq_zero_iff.mp h; subst this; exact ⟨[], by simp [spaced]⟩
    | succ k ih =>
      intro cs h
      obtain ⟨gs, h1, h2, h3, h4⟩ := ih (cs.drop 4) (by simp; omega)
      refine ⟨cs.take 4 :: gs, ?_, by simp [h2], ?_, ?_⟩
      · simp only [spaced, h1, List.flatMap_cons]; rfl
      · intro g hg
        rcases List.mem_cons.mp hg with rfl | hg
        · simp; omega
        · exact h3 g hg
      · simp [h4]
  obtain ⟨gs, h1, h2, h3, h4⟩ := hgr 8 _ hlen
  refine ⟨_, _, gs, ?_, ?_, hd.1, hd.2, h2, h3, ?_, ?_⟩
  · rw [he, h1]; rfl
  · rw [he]; simp [spaced_length 8 _ hlen, checkDigits]
  · intro g hg c hc
    apply hmem
    rw [← h4]; exact List.mem_flatten.mpr ⟨g, hg, hc⟩
  · rw [h4]; exact hval

example := C16_format (List.replicate 20 7) rfl

/-- **C16**: the 32 data characters alone determine the address. -/
theorem C16_injective (a b : Bytes) (ha : a.length = 20) (hb : b.length = 20)
    (h : (noSpaces (encode a)).drop 4 = (noSpaces (encode b)).drop 4) : a = b := by
  obtain ⟨vs, _, h1, _⟩ := encode_noSpaces a ha
  obtain ⟨ws, _, h2, _⟩ := encode_noSpaces b hb
  rw [h1, h2] at h
  have h' : base32Encode a = base32Encode b := h
  have := base32_roundtrip 4 a ha
  rw [h', base32_roundtrip 4 b hb] at this
  injection this with this
  exact this.symm

/-- **C17**: exactly which strings `Decode` accepts, and what it returns. -/
theorem C17_accepts_iff (s a : Bytes) : decode s = .ok a ↔
    (noSpaces s).length = 36 ∧ s.getLast? ≠ some 0x20 ∧
    ((noSpaces s)[0]? = some 0x4E ∨ (noSpaces s)[1]? = some 0x51) ∧
    checksum (noSpaces s) = some 1 ∧
    a.length = 20 ∧ base32Value 0 ((noSpaces s).drop 4) = some (beValue a) := by
  rw [decode_iff]
  constructor
  · rintro ⟨h1, h2, h3, h4, h5⟩
    have := (base32Decode_iff ((noSpaces s).drop 4) a (by simp; omega)).mp h5
    exact ⟨h1, h2, h3, h4, this⟩
  · rintro ⟨h1, h2, h3, h4, h5⟩
    exact ⟨h1, h2, h3, h4, (base32Decode_iff ((noSpaces s).drop 4) a (by simp; omega)).mpr h5⟩

/-- **C17**: every input gives a value or an error, never a panic. -/
theorem C17_never_panics (s : Bytes) : decode s ≠ .error .goPanic := decode_no_panic s

/-- **C17**, header: all four header characters of an accepted string are alphanumeric. -/
theorem C17_header_alnum {s a : Bytes} (h : decode s = .ok a) :
    ∀ c ∈ (noSpaces s).take 4, ∃ v, charVal c = some v := by
  have hk := ((C17_accepts_iff s a).mp h).2.2.2.1
  unfold checksum rearrange at hk
  rw [values_append] at hk
  have key : ∀ (cs : Bytes) vs, values cs = some vs → ∀ c ∈ cs, ∃ v, charVal c = some v := by
    intro cs
    induction cs with
    | nil => intro _ _ c hc; simp at hc
    | cons d cs ih =>
      intro vs hv c hc
      simp only [values] at hv
      cases h1 : charVal d with
      | none => simp [h1] at hv
      | some v =>
        cases h2 : values cs with
        | none => simp [h1, h2] at hv
        | some ws =>
          rcases List.mem_cons.mp hc with rfl | hc
          · exact ⟨v, h1⟩
          · exact ih ws h2 c hc
  cases h2 : values ((noSpaces s).take 4) with
  | none => cases h3 : values ((noSpaces s).drop 4) <;> simp [h2, h3] at hk
  | some vs => exact key _ vs h2

/-- The documentation's example address. -/
def sample : Bytes := ascii "NQ19 46LK 9YHV D9LB TDJ4 8Y2P 3J4C 37HR YDL5"
def sampleAddr : Bytes := [33, 169, 52, 254, 61, 106, 104, 189, 182, 68, 71, 197, 113, 200, 140, 25, 227, 159, 182, 133]

example : ∃ a, decode sample = .ok a ∧ a.length = 20 :=
  ⟨sampleAddr, by decide +kernel⟩

/-- **C18** (violated at the end of the string): a trailing space makes every string unacceptable. -/
theorem C18_trailing_space_violated :
    (∀ s a, decode (s ++ [0x20]) ≠ .ok a) ∧ ∃ s a, decode s = .ok a ∧ noSpaces (s ++ [0x20]) = noSpaces s := by
  constructor
  · intro s a h
    have := ((C17_accepts_iff _ a).mp h).2.1
    simp at this
  · exact ⟨encode (List.replicate 20 0), _, C15_decode_encode _ (by decide), by simp [noSpaces]⟩

/-- **C18** (what holds): two strings that differ only in spaces and do not end in one decode alike.
Missing from the full property: strings ending in a space. -/
theorem C18_spaces_partial (s₁ s₂ : Bytes) (h : noSpaces s₁ = noSpaces s₂)
    (h1 : s₁.getLast? ≠ some 0x20) (h2 : s₂.getLast? ≠ some 0x20) : decode s₁ = decode s₂ := by
  unfold decode
  rw [truncateWhitespace_spec, truncateWhitespace_spec, h]
  by_cases hl : (noSpaces s₂).length = 36
  · rw [if_pos ⟨hl, h1⟩, if_pos ⟨hl, h2⟩]
  · rw [if_neg (fun hx => hl hx.1), if_neg (fun hx => hl hx.1)]

example : noSpaces (ascii "N Q19  46LK 9YHV D9LB TDJ4 8Y2P 3J4C 37HR YDL5") = noSpaces sample ∧
    (ascii "N Q19  46LK 9YHV D9LB TDJ4 8Y2P 3J4C 37HR YDL5").getLast? ≠ some 0x20 ∧ sample.getLast? ≠ some 0x20 := by
  decide +kernel

/-- **C19** (violated): for every address and every alphanumeric character in place of the second (or the first) letter
of the country code there is an accepted string that is not an `NQ` string. -/
theorem C19_country_code_violated (a : Bytes) (ha : a.length = 20) (c : UInt8) (v : Nat) (hc : charVal c = some v) :
    (∃ d1 d2, decode ([0x4E, c] ++ [d1, d2] ++ base32Encode a) = .ok a) ∧
    (∃ d1 d2, decode ([c, 0x51] ++ [d1, d2] ++ base32Encode a) = .ok a) := by
  obtain ⟨vs, hvs⟩ := values_of_mem (fun c hc => alphabet_charVal (base32Encode_mem 4 a ha c hc))
  have hlen : (base32Encode a).length = 32 := base32Encode_length 4 a ha
  have hns : ∀ c ∈ base32Encode a, c ≠ 0x20 := by
    intro c hc hx
    have := base32Encode_mem 4 a ha c hc
    rw [hx] at this
    revert this; decide
  have hc20 : c ≠ 0x20 := by
    intro h; subst h; rw [show charVal 0x20 = none by decide] at hc; cases hc
  have gen : ∀ c0 c1 h0 h1, charVal c0 = some h0 → charVal c1 = some h1 → c0 ≠ 0x20 → c1 ≠ 0x20 → (c0 = 0x4E ∨ c1 = 0x51) →
      ∃ d1 d2, decode ([c0, c1] ++ [d1, d2] ++ base32Encode a) = .ok a := by
    intro c0 c1 h0 h1 e0 e1 n0 n1 hor
    have hck := checksum_header (base32Encode a) vs hvs c0 c1 h0 h1 e0 e1
    have hr : number (vs ++ [h0, h1, 0, 0]) % 97 < 97 := Nat.mod_lt _ (by decide)
    have hcd := (checkDigits_values _ hr).2
    generalize number (vs ++ [h0, h1, 0, 0]) % 97 = r at *
    have hn : noSpaces ([c0, c1] ++ checkDigits r ++ base32Encode a) = [c0, c1] ++ checkDigits r ++ base32Encode a := by
      rw [noSpaces, List.filter_eq_self]
      intro x hx
      rcases List.mem_append.mp hx with hx | hx
      · rcases List.mem_append.mp hx with hx | hx
        · simp at hx; rcases hx with rfl | rfl <;> simpa
        · simpa using hcd x hx
      · simpa using hns x hx
    refine ⟨_, _, (decode_iff ([c0, c1] ++ checkDigits r ++ base32Encode a) a).mpr ?_⟩
    rw [hn]
    refine ⟨by simp [hlen, checkDigits], ?_, ?_, hck, base32_roundtrip 4 a ha⟩
    · have hne : base32Encode a ≠ [] := by intro h; rw [h] at hlen; simp at hlen
      rw [List.getLast?_append, List.getLast?_eq_some_getLast hne, Option.some_or]
      intro h; injection h with h
      exact hns _ (List.getLast_mem hne) h
    · rcases hor with h | h
      · left; simp [h]
      · right; simp [h]
  exact ⟨gen 0x4E c 23 v (by decide) hc (by decide) hc20 (Or.inl rfl),
    gen c 0x51 v 26 hc (by decide) hc20 (by decide) (Or.inr rfl)⟩

/-- A concrete accepted string that does not start with `NQ`. -/
example : decode (ascii "NA55 0000 0000 0000 0000 0000 0000 0000 0000") = .ok (List.replicate 20 0) := by decide +kernel

/-- **C19** (what holds): strings with neither `N` first nor `Q` second are rejected.
Missing: rejection of strings with exactly one of them. -/
theorem C19_country_code_partial (s a : Bytes) (h0 : (noSpaces s)[0]? ≠ some 0x4E) (h1 : (noSpaces s)[1]? ≠ some 0x51) :
    decode s ≠ .ok a := by
  intro h
  rcases ((C17_accepts_iff s a).mp h).2.2.1 with h2 | h2
  · exact h0 h2
  · exact h1 h2

example : (noSpaces (ascii "XX00"))[0]? ≠ some 0x4E ∧ (noSpaces (ascii "XX00"))[1]? ≠ some 0x51 := by decide

/-- **C20**: the block-wise check is the whole number modulo 97; it fails exactly on non-alphanumeric characters. -/
theorem C20_check_is_mod97 (t : Bytes) :
    (∀ v, addressCheck t = .ok v ↔ ∃ vs, values (rearrange t) = some vs ∧ v.toNat = number vs % 97) ∧
    (∀ e, addressCheck t = .error e ↔ values (rearrange t) = none ∧ e = .character) := by
  rw [addressCheck_spec]
  unfold checksum
  cases h : values (rearrange t) with
  | none => simp [eq_comm]
  | some vs =>
    have hlt : number vs % 97 < 97 := Nat.mod_lt _ (by decide)
    constructor
    · intro v
      simp only [Option.map_some, Except.ok.injEq, Option.some.injEq, exists_eq_left']
      constructor
      · rintro rfl; rw [UInt8.toNat_ofNat']; omega
      · intro hv; apply UInt8.toNat_inj.mp; rw [UInt8.toNat_ofNat']; omega
    · intro e; simp

example : addressCheck (noSpaces sample) = .ok 1 := by decide +kernel

/-! ## Error detection -/

/-- Both are digits, or both are letters. -/
def SameClass (c c' : UInt8) : Prop :=
  (∃ v v', charVal c = some v ∧ charVal c' = some v' ∧ v < 10 ∧ v' < 10) ∨
  (∃ v v', charVal c = some v ∧ charVal c' = some v' ∧ 10 ≤ v ∧ 10 ≤ v')

/-- **C21**: a one-character typo within a class (a digit for another digit, a letter for another letter, case ignored) in
an accepted address is always rejected, wherever the spaces are. -/
theorem C21_single_typo (s a : Bytes) (h : decode s = .ok a) (i : Nat) (c c' : UInt8)
    (hi : (noSpaces s)[i]? = some c) (hcl : SameClass c c') (hne : charVal c ≠ charVal c')
    (s' : Bytes) (hs' : noSpaces s' = (noSpaces s).set i c') (b : Bytes) : decode s' ≠ .ok b := by
  intro h'
  have h1 := (C17_accepts_iff s a).mp h
  have h2 := (C17_accepts_iff s' b).mp h'
  have k1 := h1.2.2.2.1
  have k2 := h2.2.2.2.1
  rw [hs'] at k2
  have hlen := h1.1
  generalize noSpaces s = t at *
  have hi36 : i < 36 := by
    rcases Nat.lt_or_ge i 36 with h | h
    · exact h
    · rw [List.getElem?_eq_none (by omega)] at hi; cases hi
  unfold checksum at k1 k2
  rw [rearrange_set t hlen i hi36] at k2
  have hg := rearrange_get t hlen i hi36
  rw [hi] at hg
  generalize (if i < 4 then i + 32 else i - 4) = j at *
  cases hv : values (rearrange t) with
  | none => simp [hv] at k1
  | some vs =>
    obtain ⟨v, e1, e2⟩ := values_get hv j c hg
    have e3 : ∃ v', charVal c' = some v' ∧ (v < 10 ↔ v' < 10) ∧ v' < 36 := by
      rcases hcl with ⟨w, w', a1, a2, a3, a4⟩ | ⟨w, w', a1, a2, a3, a4⟩
      · rw [e1] at a1; injection a1 with a1; subst a1
        exact ⟨w', a2, by omega, charVal_lt a2⟩
      · rw [e1] at a1; injection a1 with a1; subst a1
        exact ⟨w', a2, by omega, charVal_lt a2⟩
    obtain ⟨v', e3, e4, e5⟩ := e3
    have hvlt := charVal_lt e1
    rw [values_set hv j c' v' e3] at k2
    simp only [hv, Option.map_some, Option.some.injEq] at k1 k2
    obtain ⟨sp1, sp2⟩ := split_at e2
    rw [sp2] at k2
    rw [sp1] at k1
    simp only [number, List.foldl_append, List.foldl_cons] at k1 k2
    have hr : ∀ x ∈ vs.drop (j+1), x < 36 := fun x hx => values_lt hv x (List.mem_of_mem_drop hx)
    have := number_split (vs.drop (j+1)) hr _ _ (k1.trans k2.symm)
    have hvne : v ≠ v' := by
      intro hx; subst hx; exact hne (e1.trans e3.symm)
    generalize List.foldl push 0 (vs.take j) = acc at *
    unfold push at this
    split at this <;> split at this <;> omega

example : ∃ a, decode sample = .ok a ∧ (noSpaces sample)[5]? = some 0x36 ∧ SameClass 0x36 0x37 ∧ charVal 0x36 ≠ charVal 0x37 :=
  ⟨sampleAddr,
    by decide +kernel, by decide +kernel, Or.inl ⟨6, 7, by decide, by decide, by decide, by decide⟩, by decide⟩

/-- The three pairs whose transposition the checksum cannot see: `B`/`1`, `M`/`2`, `X`/`3`. -/
def Blind (c c' : UInt8) : Prop :=
  (c, c') ∈ [(0x42, 0x31), (0x31, 0x42), (0x4D, 0x32), (0x32, 0x4D), (0x58, 0x33), (0x33, 0x58)]

theorem blind_iff (c c' : UInt8) (hc : (charDigit c).isSome = true) (hc' : (charDigit c').isSome = true) (x y : Nat)
    (hx : charVal c = some x) (hy : charVal c' = some y) (hne : c ≠ c') :
    (x = y ∨ (x = 1 ∧ y = 11) ∨ (x = 11 ∧ y = 1) ∨ (x = 2 ∧ y = 22) ∨ (x = 22 ∧ y = 2) ∨ (x = 3 ∧ y = 33) ∨ (x = 33 ∧ y = 3)) ↔
      Blind c c' := by
  have key : ∀ c ∈ alphabet, ∀ c' ∈ alphabet, c ≠ c' →
      ((let x := (charVal c).getD 0; let y := (charVal c').getD 0;
        (x = y ∨ (x = 1 ∧ y = 11) ∨ (x = 11 ∧ y = 1) ∨ (x = 2 ∧ y = 22) ∨ (x = 22 ∧ y = 2) ∨ (x = 3 ∧ y = 33) ∨ (x = 33 ∧ y = 3))) ↔
      (c, c') ∈ [((0x42 : UInt8), (0x31 : UInt8)), (0x31, 0x42), (0x4D, 0x32), (0x32, 0x4D), (0x58, 0x33), (0x33, 0x58)]) := by
    decide +kernel
  have mem : ∀ c, (charDigit c).isSome = true → c ∈ alphabet := by
    intro c hc
    obtain ⟨d, hd⟩ := Option.isSome_iff_exists.mp hc
    obtain ⟨h1, h2⟩ := charDigit_some hd
    rw [h2]; exact digitChar_mem d
  have := key c (mem c hc) c' (mem c' hc') hne
  rw [hx, hy] at this
  exact this

/-- **C22**: swapping two different adjacent characters of the data part (positions 4…35) of an accepted address: the
result is accepted iff the pair is one of the three blind ones (and then it is a different address). -/
theorem C22_transposition (s a : Bytes) (h : decode s = .ok a) (i : Nat) (hi : 4 ≤ i) (c c' : UInt8)
    (h0 : (noSpaces s)[i]? = some c) (h1 : (noSpaces s)[i+1]? = some c') (hne : c ≠ c')
    (s' : Bytes) (hs' : noSpaces s' = ((noSpaces s).set i c').set (i+1) c) (hlast : s'.getLast? ≠ some 0x20) :
    ((∃ b, decode s' = .ok b) ↔ Blind c c') ∧ (∀ b, decode s' = .ok b → b ≠ a) := by
  have d1 := (decode_iff s a).mp h
  obtain ⟨hlen, _, hhead, hk, hb⟩ := d1
  have hi36 : i + 1 < 36 := by
    rcases Nat.lt_or_ge (i+1) 36 with h | h
    · exact h
    · rw [List.getElem?_eq_none (by omega)] at h1; cases h1
  have hall := (base32Decode_isSome 4 ((noSpaces s).drop 4) (by simp; omega)).mp (by rw [hb]; rfl)
  -- the swapped string
  have hdec' : ∀ b, decode s' = .ok b ↔ checksum (noSpaces s') = some 1 ∧ base32Decode ((noSpaces s').drop 4) = some b := by
    intro b
    rw [decode_iff]
    constructor
    · rintro ⟨_, _, _, x, y⟩; exact ⟨x, y⟩
    · rintro ⟨x, y⟩
      refine ⟨by rw [hs']; simpa using hlen, hlast, ?_, x, y⟩
      rw [hs']
      simp only [List.getElem?_set]
      rw [if_neg (by omega), if_neg (by omega), if_neg (by omega), if_neg (by omega)]
      exact hhead
  generalize noSpaces s = t at *
  have hmem : ∀ j x, 4 ≤ j → t[j]? = some x → (charDigit x).isSome = true := by
    intro j x hj hx
    apply hall
    have : (t.drop 4)[j-4]? = some x := by rw [List.getElem?_drop, show 4 + (j-4) = j by omega]; exact hx
    exact List.mem_of_getElem? this
  have hcd := hmem i c hi h0
  have hcd' := hmem (i+1) c' (by omega) h1
  have hget : ∀ j, (noSpaces s')[j]? = if j = i then some c' else if j = i+1 then some c else t[j]? := by
    intro j
    rw [hs', List.getElem?_set, List.getElem?_set]
    simp only [List.length_set]
    repeat' split
    all_goals first | rfl | omega
  have hbase : ∃ b, base32Decode ((noSpaces s').drop 4) = some b := by
    apply Option.isSome_iff_exists.mp
    apply (base32Decode_isSome 4 _ (by rw [hs']; simp; omega)).mpr
    intro x hx
    rw [List.mem_iff_getElem?] at hx
    obtain ⟨j, hj⟩ := hx
    rw [List.getElem?_drop, hget] at hj
    split at hj
    · injection hj with hj; subst hj; exact hcd'
    · split at hj
      · injection hj with hj; subst hj; exact hcd
      · exact hmem (4+j) x (by omega) hj
  constructor
  · obtain ⟨b, hbb⟩ := hbase
    have hiff : (∃ b, decode s' = .ok b) ↔ checksum (noSpaces s') = some 1 :=
      ⟨fun ⟨b, hb⟩ => ((hdec' b).mp hb).1, fun hx => ⟨b, (hdec' b).mpr ⟨hx, hbb⟩⟩⟩
    rw [hiff, hs']
    unfold checksum at hk ⊢
    rw [rearrange_set _ (by simpa using hlen) (i+1) hi36, rearrange_set t hlen i (by omega)]
    have g0 := rearrange_get t hlen i (by omega)
    have g1 := rearrange_get t hlen (i+1) hi36
    rw [if_neg (by omega)] at g0 g1
    rw [if_neg (by omega), if_neg (by omega)]
    rw [h0] at g0
    rw [h1] at g1
    rw [show i + 1 - 4 = i - 4 + 1 by omega] at g1 ⊢
    generalize i - 4 = j at *
    cases hv : values (rearrange t) with
    | none => simp [hv] at hk
    | some vs =>
      obtain ⟨x, e1, e2⟩ := values_get hv j c g0
      obtain ⟨y, f1, f2⟩ := values_get hv (j+1) c' g1
      rw [values_set (values_set hv j c' y f1) (j+1) c x e1]
      simp only [hv, Option.map_some, Option.some.injEq] at hk ⊢
      obtain ⟨sp, sp2⟩ := split_two e2 f2
      have hr : ∀ z ∈ vs.drop (j+2), z < 36 := fun z hz => values_lt hv z (List.mem_of_mem_drop hz)
      rw [sp2]
      rw [← blind_iff c c' hcd hcd' x y e1 f1 hne,
        ← swap_values x y ((vs.take j).foldl push 0) (charVal_lt e1) (charVal_lt f1)]
      rw [sp] at hk
      simp only [number, List.foldl_append, List.foldl_cons] at hk ⊢
      generalize List.foldl push 0 (vs.take j) = acc at *
      constructor
      · intro hx
        exact number_split (vs.drop (j+2)) hr _ _ (hk.trans hx.symm)
      · intro hx
        rw [← hk, foldl_push _ hr, foldl_push _ hr]
        rw [← mod_step, ← hx, mod_step]
  · intro b hb' hab
    subst hab
    have := ((hdec' b).mp hb').2
    obtain ⟨q1, _⟩ := base32_canonical 4 _ (by rw [hs']; simp; omega) b this
    obtain ⟨q2, _⟩ := base32_canonical 4 (t.drop 4) (by simp; omega) b hb
    have q3 : ((noSpaces s').drop 4)[i-4]? = (t.drop 4)[i-4]? := by rw [← q1, ← q2]
    rw [List.getElem?_drop, List.getElem?_drop, show 4 + (i-4) = i by omega, hget, if_pos rfl, h0] at q3
    injection q3 with q3
    exact hne q3.symm

/-- Hypotheses met: swapping `4` and `6` (positions 4 and 5) of the sample; and a blind pair `1B` in a valid address. -/
example : decode sample = .ok sampleAddr ∧ (noSpaces sample)[4]? = some 0x34 ∧ (noSpaces sample)[5]? = some 0x36 ∧
    ¬ Blind 0x34 0x36 := ⟨by decide +kernel, by decide +kernel, by decide +kernel, by unfold Blind; decide⟩

example : ∃ a b, decode (ascii "NQ811B000000000000000000000000000000") = .ok a ∧
    decode (ascii "NQ81B1000000000000000000000000000000") = .ok b ∧ a ≠ b :=
  ⟨[0x0A, 0xC0, 0,0,0,0,0,0,0,0,0,0,0,0,0,0,0,0,0,0], [0x58, 0x40, 0,0,0,0,0,0,0,0,0,0,0,0,0,0,0,0,0,0],
    by decide +kernel, by decide +kernel, by decide⟩

end Nimiq.Address
