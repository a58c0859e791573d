import Verif.Wire.Model
/-!
# Compact targets (C53)
-/
namespace Nimiq.Wire

/-! ## Specification -/

/-- The mantissa: the low 24 bits. -/
def mantissa (c : UInt32) : Nat := c.toNat % 2 ^ 24
/-- The exponent: the high 8 bits. -/
def exponent (c : UInt32) : Nat := c.toNat / 2 ^ 24
/-- The number a compact value stands for (exponents below 3 do not occur). -/
def expand (c : UInt32) : Nat := mantissa c * 256 ^ (exponent c - 3)

/-! ## Lemmas -/

/-- The number with the given base 256 digits. -/
def value (l : List Nat) : Nat := l.foldl (fun a d => 256 * a + d) 0

theorem value_snoc (l : List Nat) (d : Nat) : value (l ++ [d]) = 256 * value l + d := by simp [value]

theorem foldl_value (l : List Nat) : ∀ a : Nat, l.foldl (fun a d => 256 * a + d) a = a * 256 ^ l.length + value l := by
  induction l with
  | nil => intro a; simp [value]
  | cons d l ih =>
    intro a
    simp only [List.foldl_cons, List.length_cons, value]
    rw [ih, ih (256 * 0 + d)]
    simp only [Nat.pow_succ, Nat.add_mul, Nat.mul_zero, Nat.zero_mul]
    have : 256 * a * 256 ^ l.length = a * (256 ^ l.length * 256) := by
      rw [Nat.mul_comm 256 a, Nat.mul_assoc, Nat.mul_comm 256]
    omega

theorem value_cons (d : Nat) (l : List Nat) : value (d :: l) = d * 256 ^ l.length + value l := by
  have : value (d :: l) = l.foldl (fun a d => 256 * a + d) d := by simp [value]
  rw [this, foldl_value]

theorem value_lt (l : List Nat) (h : ∀ d ∈ l, d < 256) : value l < 256 ^ l.length := by
  induction l with
  | nil => simp [value]
  | cons d l ih =>
    have h1 := h d (by simp)
    have h2 := ih (fun x hx => h x (by simp [hx]))
    rw [value_cons, List.length_cons, Nat.pow_succ]
    have : (d + 1) * 256 ^ l.length ≤ 256 * 256 ^ l.length := Nat.mul_le_mul_right _ (by omega)
    rw [Nat.add_mul] at this
    omega

theorem bigBytes_spec (x : Nat) : value (bigBytes x) = x ∧ (∀ d ∈ bigBytes x, d < 256) ∧
    (∀ d l, bigBytes x = d :: l → d ≠ 0) := by
  induction x using Nat.strongRecOn with
  | ind x ih =>
    rw [bigBytes]
    by_cases h : x = 0
    · subst h; simp [value]
    · rw [dif_neg h]
      obtain ⟨h1, h2, h3⟩ := ih (x / 256) (by omega)
      refine ⟨by rw [value_snoc, h1]; omega, ?_, ?_⟩
      · intro d hd
        rcases List.mem_append.mp hd with hd | hd
        · exact h2 d hd
        · simp only [List.mem_singleton] at hd; omega
      · intro d l hdl
        cases hb : bigBytes (x / 256) with
        | nil =>
          rw [hb] at h1 hdl
          simp only [List.nil_append, List.cons.injEq] at hdl
          simp only [value, List.foldl_nil] at h1
          omega
        | cons a r =>
          rw [hb] at hdl
          simp only [List.cons_append, List.cons.injEq] at hdl
          rw [← hdl.1]
          exact h3 a r hb

/-- `|` of a shifted byte and a smaller number is their sum -/
theorem or_eq_add (e m : Nat) (he : e < 256) (hm : m < 2 ^ 24) :
    ((UInt32.ofNat e <<< 24) ||| UInt32.ofNat m).toNat = e * 2 ^ 24 + m := by
  rw [UInt32.toNat_or, UInt32.toNat_shiftLeft, UInt32.toNat_ofNat', UInt32.toNat_ofNat']
  have h24 : (24 : UInt32).toNat % 32 = 24 := by decide
  rw [h24, Nat.mod_eq_of_lt (show e < 2 ^ 32 by omega), Nat.mod_eq_of_lt (show m < 2 ^ 32 by omega), Nat.shiftLeft_eq,
    Nat.mod_eq_of_lt (show e * 2 ^ 24 < 2 ^ 32 by omega), ← Nat.shiftLeft_eq, ← Nat.shiftLeft_add_eq_or_of_lt hm,
    Nat.shiftLeft_eq]

theorem or_bytes (b c : Nat) (hb : b < 256) (hc : c < 256) : (UInt32.ofNat b <<< 8) ||| UInt32.ofNat c = UInt32.ofNat (b * 256 + c) := by
  apply UInt32.toNat_inj.mp
  rw [UInt32.toNat_or, UInt32.toNat_shiftLeft, UInt32.toNat_ofNat', UInt32.toNat_ofNat', UInt32.toNat_ofNat']
  have h8 : (8 : UInt32).toNat % 32 = 8 := by decide
  rw [h8, Nat.mod_eq_of_lt (show b < 2 ^ 32 by omega), Nat.mod_eq_of_lt (show c < 2 ^ 32 by omega), Nat.shiftLeft_eq,
    Nat.mod_eq_of_lt (show b * 2 ^ 8 < 2 ^ 32 by omega), ← Nat.shiftLeft_eq, ← Nat.shiftLeft_add_eq_or_of_lt (by omega),
    Nat.shiftLeft_eq, Nat.mod_eq_of_lt (by omega)]

theorem or_bytes3 (a b c : Nat) (ha : a < 256) (hb : b < 256) (hc : c < 256) :
    (UInt32.ofNat a <<< 16) ||| (UInt32.ofNat b <<< 8) ||| UInt32.ofNat c = UInt32.ofNat ((a * 256 + b) * 256 + c) := by
  rw [UInt32.or_assoc, or_bytes b c hb hc]
  apply UInt32.toNat_inj.mp
  rw [UInt32.toNat_or, UInt32.toNat_shiftLeft, UInt32.toNat_ofNat', UInt32.toNat_ofNat', UInt32.toNat_ofNat']
  have h8 : (16 : UInt32).toNat % 32 = 16 := by decide
  rw [h8, Nat.mod_eq_of_lt (show a < 2 ^ 32 by omega), Nat.mod_eq_of_lt (show b * 256 + c < 2 ^ 32 by omega), Nat.shiftLeft_eq,
    Nat.mod_eq_of_lt (show a * 2 ^ 16 < 2 ^ 32 by omega), ← Nat.shiftLeft_eq, ← Nat.shiftLeft_add_eq_or_of_lt (by omega),
    Nat.shiftLeft_eq, Nat.mod_eq_of_lt (by omega)]
  omega

theorem split_exp (e m : Nat) (he : e < 256) (hm : m < 2 ^ 24) (c : UInt32) (hc : c.toNat = e * 2 ^ 24 + m) :
    exponent c = e ∧ mantissa c = m := by
  unfold exponent mantissa
  rw [hc]
  omega

/-! ## C53 -/

/-- C53. `TargetToCompact` panics exactly for targets below 65536. -/
theorem C53_panics_iff (t : Nat) : targetToCompact t = none ↔ t < 65536 := by
  obtain ⟨h1, h2, h3⟩ := bigBytes_spec t
  unfold targetToCompact
  cases hb : bigBytes t with
  | nil =>
    rw [hb] at h1
    simp only [value, List.foldl_nil] at h1
    simp; omega
  | cons b0 r =>
    rw [hb] at h1 h2
    have n0 := h3 b0 r hb
    have l0 := h2 b0 (by simp)
    cases r with
    | nil =>
      simp only [value, List.foldl_cons, List.foldl_nil] at h1
      simp; omega
    | cons b1 r =>
      have l1 := h2 b1 (by simp)
      cases r with
      | nil =>
        simp only [value, List.foldl_cons, List.foldl_nil] at h1
        simp; omega
      | cons b2 r =>
        have hv : 65536 ≤ t := by
          rw [value_cons] at h1
          have : 256 ^ 2 ≤ 256 ^ (b1 :: b2 :: r).length := Nat.pow_le_pow_right (by omega) (by simp)
          have : 1 * 256 ^ (b1 :: b2 :: r).length ≤ b0 * 256 ^ (b1 :: b2 :: r).length :=
            Nat.mul_le_mul_right _ (by omega)
          omega
        simp only
        split <;> simp <;> omega

/-- C53. The compact form of a target: the mantissa has 16 to 23 bits, so its sign bit (bit 23) is clear, the exponent is at
least 3, and the expansion is the target rounded down to a multiple of the unit `256 ^ (exponent - 3)`. -/
theorem C53_value (t : Nat) (h : 65536 ≤ t) (ht : t < 2 ^ 7 * 256 ^ 254) : ∃ c, targetToCompact t = some c ∧
    2 ^ 15 ≤ mantissa c ∧ mantissa c < 2 ^ 23 ∧ 3 ≤ exponent c ∧
    expand c ≤ t ∧ t < expand c + 256 ^ (exponent c - 3) := by
  obtain ⟨h1, h2, h3⟩ := bigBytes_spec t
  cases hb : bigBytes t with
  | nil =>
    rw [hb] at h1
    simp only [value, List.foldl_nil] at h1
    omega
  | cons b0 r =>
    rw [hb] at h1 h2
    have n0 := h3 b0 r hb
    have l0 := h2 b0 (by simp)
    cases r with
    | nil => simp only [value, List.foldl_cons, List.foldl_nil] at h1; omega
    | cons b1 r =>
      have l1 := h2 b1 (by simp)
      cases r with
      | nil => simp only [value, List.foldl_cons, List.foldl_nil] at h1; omega
      | cons b2 r =>
        have l2 := h2 b2 (by simp)
        have hlen : r.length + 3 ≤ 255 ∧ (b0 ≥ 0x80 → r.length + 3 ≤ 254) := by
          rw [value_cons] at h1
          have hone : 1 * 256 ^ (b1 :: b2 :: r).length ≤ b0 * 256 ^ (b1 :: b2 :: r).length :=
            Nat.mul_le_mul_right _ (by omega)
          constructor
          · by_cases hle : r.length + 3 ≤ 255
            · exact hle
            · exfalso
              have : 256 ^ 255 ≤ 256 ^ (b1 :: b2 :: r).length := Nat.pow_le_pow_right (by omega) (by simp; omega)
              omega
          · intro hb0
            by_cases hle : r.length + 3 ≤ 254
            · exact hle
            · exfalso
              have h7 : 256 ^ 254 ≤ 256 ^ (b1 :: b2 :: r).length := Nat.pow_le_pow_right (by omega) (by simp; omega)
              have := Nat.mul_le_mul hb0 h7
              omega
        rw [value_cons, value_cons] at h1
        by_cases hc : b0 ≥ 0x80
        · have hv := value_lt (b2 :: r) (fun d hd => h2 d (by simp [hd]))
          have hlen := hlen.2 hc
          have hcomp : targetToCompact t = some ((UInt32.ofNat (r.length + 4) <<< 24) ||| UInt32.ofNat (b0 * 256 + b1)) := by
            unfold targetToCompact
            rw [hb]
            simp only [List.length_cons]
            rw [if_pos ⟨hc, by omega⟩, UInt32.or_assoc, or_bytes b0 b1 l0 l1]
          obtain ⟨he, hm⟩ := split_exp _ _ (by omega) (by omega) _ (or_eq_add (r.length + 4) (b0 * 256 + b1) (by omega) (by omega))
          refine ⟨_, hcomp, ?_⟩
          rw [expand, he, hm]
          have e1 : r.length + 4 - 3 = r.length + 1 := by omega
          have e2 : (b2 :: r).length = r.length + 1 := rfl
          have e3 : (b1 :: b2 :: r).length = r.length + 1 + 1 := rfl
          rw [e2] at hv h1
          rw [e3, Nat.pow_succ] at h1
          rw [e1]
          have : (b0 * 256 + b1) * 256 ^ (r.length + 1) = b0 * (256 ^ (r.length + 1) * 256) + b1 * 256 ^ (r.length + 1) := by
            rw [Nat.add_mul, Nat.mul_assoc, Nat.mul_comm 256]
          refine ⟨by omega, by omega, by omega, by omega, by omega⟩
        · have hv := value_lt r (fun d hd => h2 d (by simp [hd]))
          rw [value_cons] at h1
          have hlen := hlen.1
          have hcomp : targetToCompact t =
              some ((UInt32.ofNat (r.length + 3) <<< 24) ||| UInt32.ofNat ((b0 * 256 + b1) * 256 + b2)) := by
            unfold targetToCompact
            rw [hb]
            simp only [List.length_cons]
            rw [if_neg (fun hx => hc hx.1), UInt32.or_assoc, UInt32.or_assoc, ← UInt32.or_assoc (UInt32.ofNat b0 <<< 16),
              or_bytes3 b0 b1 b2 l0 l1 l2]
          obtain ⟨he, hm⟩ := split_exp _ _ (by omega) (by omega) _
            (or_eq_add (r.length + 3) ((b0 * 256 + b1) * 256 + b2) (by omega) (by omega))
          refine ⟨_, hcomp, ?_⟩
          rw [expand, he, hm]
          have e1 : r.length + 3 - 3 = r.length := by omega
          have e2 : (b2 :: r).length = r.length + 1 := rfl
          have e3 : (b1 :: b2 :: r).length = r.length + 1 + 1 := rfl
          rw [e2, e3, Nat.pow_succ, Nat.pow_succ] at h1
          rw [e1]
          have : ((b0 * 256 + b1) * 256 + b2) * 256 ^ r.length =
              b0 * (256 ^ r.length * 256 * 256) + b1 * (256 ^ r.length * 256) + b2 * 256 ^ r.length := by
            generalize 256 ^ r.length = u
            rw [Nat.add_mul, Nat.mul_assoc, Nat.mul_comm 256 u, Nat.add_mul, Nat.mul_assoc b0, Nat.mul_comm 256 (u * 256)]
          refine ⟨by omega, by omega, by omega, by omega, by omega⟩

example := C53_value 65536 (by decide) (by
  calc 65536 < 256 ^ 254 := Nat.lt_of_lt_of_le (show 65536 < 256 ^ 3 by decide) (Nat.pow_le_pow_right (by decide) (by decide))
    _ ≤ 2 ^ 7 * 256 ^ 254 := Nat.le_mul_of_pos_left _ (by decide))

/-- The two conditions of `C53_value` determine the compact form. -/
theorem compact_lt {c d : UInt32} {t u : Nat} (hc1 : 2 ^ 15 ≤ mantissa c) (_hc2 : mantissa c < 2 ^ 23) (_hc3 : 3 ≤ exponent c)
    (hc4 : expand c ≤ t) (_hd1 : 2 ^ 15 ≤ mantissa d) (hd2 : mantissa d < 2 ^ 23) (hd3 : 3 ≤ exponent d)
    (hd5 : u < expand d + 256 ^ (exponent d - 3)) (htu : t ≤ u) :
    c.toNat ≤ d.toNat := by
  have ec : c.toNat = exponent c * 2 ^ 24 + mantissa c := by unfold exponent mantissa; omega
  have ed : d.toNat = exponent d * 2 ^ 24 + mantissa d := by unfold exponent mantissa; omega
  have hd5' : u < (mantissa d + 1) * 256 ^ (exponent d - 3) := by rw [Nat.add_mul, Nat.one_mul]; exact hd5
  rcases Nat.lt_trichotomy (exponent c) (exponent d) with h | h | h
  · omega
  · by_cases hm : mantissa c ≤ mantissa d
    · omega
    · exfalso
      have : (mantissa d + 1) * 256 ^ (exponent d - 3) ≤ mantissa c * 256 ^ (exponent c - 3) := by
        rw [h]; exact Nat.mul_le_mul_right _ (by omega)
      unfold expand at hc4
      omega
  · exfalso
    have hp : 256 ^ (exponent d - 3) * 256 ≤ 256 ^ (exponent c - 3) := by
      rw [← Nat.pow_succ]; exact Nat.pow_le_pow_right (by omega) (by omega)
    have h1 : 2 ^ 15 * (256 ^ (exponent d - 3) * 256) ≤ mantissa c * 256 ^ (exponent c - 3) := Nat.mul_le_mul hc1 hp
    have h2 : (mantissa d + 1) * 256 ^ (exponent d - 3) ≤ 2 ^ 23 * 256 ^ (exponent d - 3) := Nat.mul_le_mul_right _ (by omega)
    unfold expand at hc4
    omega

/-- C53. The map is monotone, both as numbers and as the targets the numbers stand for. -/
theorem C53_monotone (t u : Nat) (htu : t ≤ u) (h : 65536 ≤ t) (hu : u < 2 ^ 7 * 256 ^ 254) : ∃ c d, targetToCompact t = some c ∧
    targetToCompact u = some d ∧ c.toNat ≤ d.toNat ∧ expand c ≤ expand d := by
  obtain ⟨c, hc, c1, c2, c3, c4, c5⟩ := C53_value t h (by omega)
  obtain ⟨d, hd, d1, d2, d3, d4, d5⟩ := C53_value u (by omega) hu
  have hcd := compact_lt c1 c2 c3 c4 d1 d2 d3 d5 htu
  refine ⟨c, d, hc, hd, hcd, ?_⟩
  have ec : c.toNat = exponent c * 2 ^ 24 + mantissa c := by unfold exponent mantissa; omega
  have ed : d.toNat = exponent d * 2 ^ 24 + mantissa d := by unfold exponent mantissa; omega
  by_cases h : exponent c = exponent d
  · unfold expand
    rw [h]
    exact Nat.mul_le_mul_right _ (by omega)
  · by_cases hle : expand c ≤ expand d
    · exact hle
    · exfalso
      have hlt : exponent c < exponent d := by omega
      have hp : 256 ^ (exponent c - 3) * 256 ≤ 256 ^ (exponent d - 3) := by
        rw [← Nat.pow_succ]; exact Nat.pow_le_pow_right (by omega) (by omega)
      have h1 : 2 ^ 15 * (256 ^ (exponent c - 3) * 256) ≤ mantissa d * 256 ^ (exponent d - 3) := Nat.mul_le_mul d1 hp
      have h2 : mantissa c * 256 ^ (exponent c - 3) ≤ 2 ^ 23 * 256 ^ (exponent c - 3) := Nat.mul_le_mul_right _ (by omega)
      unfold expand at hle
      omega

/-- C53. Targets that are already in compact form survive: any number of the form `m * 256 ^ k` with a 16 to 23 bit `m` is
the expansion of its own compact form. -/
theorem C53_exact (m k : Nat) (h1 : 2 ^ 15 ≤ m) (h2 : m < 2 ^ 23) (hk : k ≤ 252) (h : 65536 ≤ m * 256 ^ k) : ∃ c,
    targetToCompact (m * 256 ^ k) = some c ∧ expand c = m * 256 ^ k := by
  have hlt : m * 256 ^ k < 2 ^ 7 * 256 ^ 254 := by
    have e : (2 : Nat) ^ 7 * 256 ^ 254 = 2 ^ 23 * 256 ^ 252 := by rw [show 254 = 2 + 252 from rfl, Nat.pow_add, ← Nat.mul_assoc]
    have h3 : m * 256 ^ k ≤ m * 256 ^ 252 := Nat.mul_le_mul_left _ (Nat.pow_le_pow_right (by omega) hk)
    have h4 : m * 256 ^ 252 < 2 ^ 23 * 256 ^ 252 := Nat.mul_lt_mul_of_pos_right h2 (Nat.pow_pos (by decide))
    rw [e]; exact Nat.lt_of_le_of_lt h3 h4
  obtain ⟨c, hc, c1, c2, c3, c4, c5⟩ := C53_value _ h hlt
  refine ⟨c, hc, ?_⟩
  -- the unit of the compact form divides the number
  have hek : exponent c - 3 ≤ k := by
    by_cases hle : exponent c - 3 ≤ k
    · exact hle
    · exfalso
      have hp : 256 ^ k * 256 ≤ 256 ^ (exponent c - 3) := by
        rw [← Nat.pow_succ]; exact Nat.pow_le_pow_right (by omega) (by omega)
      have h3 : 2 ^ 15 * (256 ^ k * 256) ≤ mantissa c * 256 ^ (exponent c - 3) := Nat.mul_le_mul c1 hp
      have h4 : m * 256 ^ k < 2 ^ 23 * 256 ^ k := Nat.mul_lt_mul_of_pos_right h2 (Nat.pow_pos (by decide))
      unfold expand at c4
      omega
  obtain ⟨j, rfl⟩ : ∃ j, k = exponent c - 3 + j := ⟨k - (exponent c - 3), by omega⟩
  have e : m * 256 ^ (exponent c - 3 + j) = m * 256 ^ j * 256 ^ (exponent c - 3) := by
    rw [Nat.pow_add, Nat.mul_assoc, Nat.mul_comm (256 ^ j)]
  unfold expand at c4 c5 ⊢
  rw [e] at c4 c5 ⊢
  have hpos : 0 < 256 ^ (exponent c - 3) := Nat.pow_pos (by decide)
  have a1 : mantissa c ≤ m * 256 ^ j := Nat.le_of_mul_le_mul_right c4 hpos
  have a2 : m * 256 ^ j < mantissa c + 1 := by
    apply Nat.lt_of_mul_lt_mul_right (a := 256 ^ (exponent c - 3))
    rw [Nat.add_mul, Nat.one_mul]; exact c5
  rw [show mantissa c = m * 256 ^ j by omega]

/-- C53. `DifficultyToCompact` panics exactly for difficulty 0 and for difficulties above `2 ^ 224`. -/
theorem C53_difficulty_panics_iff (d : Nat) : difficultyToCompact d = none ↔ d = 0 ∨ 2 ^ 224 < d := by
  unfold difficultyToCompact difficultyToTarget
  by_cases h : d = 0
  · simp [h]
  · rw [if_neg h]
    simp only [C53_panics_iff, h, false_or]
    unfold blockTargetMax
    rw [Nat.div_lt_iff_lt_mul (by omega)]
    have e : (2 : Nat) ^ 240 = 65536 * 2 ^ 224 := by rw [show (65536 : Nat) = 2 ^ 16 by decide, ← Nat.pow_add]
    rw [e]
    generalize (2 : Nat) ^ 224 = u
    omega

/-- C53. A larger difficulty never gives a larger compact target. -/
theorem C53_difficulty_antitone (d e : Nat) (hd : 1 ≤ d) (hde : d ≤ e) (he : e ≤ 2 ^ 224) : ∃ c c',
    difficultyToCompact d = some c ∧ difficultyToCompact e = some c' ∧ c'.toNat ≤ c.toNat ∧ expand c' ≤ expand c := by
  have hle : blockTargetMax / e ≤ blockTargetMax / d := Nat.div_le_div_left hde (by omega)
  have hlo : 65536 ≤ blockTargetMax / e := by
    rw [Nat.le_div_iff_mul_le (by omega)]
    unfold blockTargetMax
    rw [show (240 : Nat) = 16 + 224 by omega, Nat.pow_add]
    exact Nat.mul_le_mul (by decide) he
  have hhi : blockTargetMax / d < 256 ^ 254 := by
    have h1 : blockTargetMax / d ≤ blockTargetMax := Nat.div_le_self _ _
    have h2 : blockTargetMax < 256 ^ 254 := by
      unfold blockTargetMax
      rw [show (256 : Nat) = 2 ^ 8 by decide, ← Nat.pow_mul]
      exact Nat.pow_lt_pow_right (by decide) (by decide)
    omega
  obtain ⟨c', c, hc', hc, h1, h2⟩ := C53_monotone _ _ hle hlo (Nat.lt_of_lt_of_le hhi (Nat.le_mul_of_pos_left _ (by decide)))
  refine ⟨c, c', ?_, ?_, h1, h2⟩
  · simp only [difficultyToCompact, difficultyToTarget, if_neg (show d ≠ 0 by omega), hc]
  · simp only [difficultyToCompact, difficultyToTarget, if_neg (show e ≠ 0 by omega), hc']

/-- Non-trivial instances. -/
example : targetToCompact 0x123456 = some 0x03123456 := by
  have h : bigBytes 0x123456 = [0x12, 0x34, 0x56] := by
    rw [bigBytes, dif_neg (by decide), bigBytes, dif_neg (by decide), bigBytes, dif_neg (by decide), bigBytes]; rfl
  unfold targetToCompact; rw [h]; decide
example : targetToCompact 0x923456 = some 0x04009234 := by
  have h : bigBytes 0x923456 = [0x92, 0x34, 0x56] := by
    rw [bigBytes, dif_neg (by decide), bigBytes, dif_neg (by decide), bigBytes, dif_neg (by decide), bigBytes]; rfl
  unfold targetToCompact; rw [h]; decide

end Nimiq.Wire
