import Verif.Address.Base32
/-! # The check function computes the mod-97 remainder -/
namespace Nimiq.Address
open Spec

def val (s : Bytes) : Nat := s.foldl (fun acc c => acc * 10 + (c.toNat - 0x30)) 0

theorem val_foldl (s : Bytes) (a : Nat) :
    s.foldl (fun acc c => acc * 10 + (c.toNat - 0x30)) a = a * 10 ^ s.length + val s := by
  induction s generalizing a with
  | nil => simp [val]
  | cons c s ih =>
    simp only [val, List.foldl_cons, List.length_cons]
    rw [ih, ih (0 * 10 + (c.toNat - 0x30))]
    simp only [Nat.pow_succ, Nat.add_mul, Nat.zero_mul, Nat.zero_add]
    rw [Nat.mul_assoc, Nat.mul_comm 10]; omega

theorem val_append (s t : Bytes) : val (s ++ t) = val s * 10 ^ t.length + val t := by
  rw [val, List.foldl_append, val_foldl]; rfl

theorem isDigit_ofNat (n : Nat) (h : n < 10) : isDigit (UInt8.ofNat (0x30 + n)) = true := by
  have : ∀ m : Fin 10, isDigit (UInt8.ofNat (0x30 + m.val)) = true := by decide
  exact this ⟨n, h⟩

theorem toNat_digit (n : Nat) (h : n < 10) : (UInt8.ofNat (0x30 + n)).toNat - 0x30 = n := by
  rw [UInt8.toNat_ofNat']; omega

theorem formatUint_digits (n : Nat) : (formatUint n).all isDigit = true := by
  induction n using Nat.strongRecOn with
  | _ n ih =>
    unfold formatUint
    split
    · rename_i h; simp only [List.all_cons, isDigit_ofNat n h, List.all_nil, Bool.and_self]
    · rename_i h
      rw [List.all_append, ih (n/10) (by omega)]
      simp only [List.all_cons, isDigit_ofNat (n % 10) (Nat.mod_lt _ (by decide)), List.all_nil, Bool.and_self]

theorem val_formatUint (n : Nat) : val (formatUint n) = n := by
  induction n using Nat.strongRecOn with
  | _ n ih =>
    unfold formatUint
    split
    · rename_i h; simp only [val, List.foldl_cons, List.foldl_nil, toNat_digit n h]; omega
    · rename_i h
      rw [val_append, ih (n/10) (by omega)]
      simp only [val, List.foldl_cons, List.foldl_nil, toNat_digit (n % 10) (Nat.mod_lt _ (by decide)), List.length_singleton]
      omega

theorem formatUint_len2 (n : Nat) (h : n < 100) : (formatUint n).length = if n < 10 then 1 else 2 := by
  unfold formatUint
  split
  · rfl
  · unfold formatUint
    rw [if_pos (by omega)]; simp

theorem isDigit_bound {c : UInt8} (h : isDigit c = true) : c.toNat - 0x30 < 10 := by
  simp only [isDigit, Bool.and_eq_true, decide_eq_true_eq, UInt8.le_iff_toNat_le] at h
  have : (0x39 : UInt8).toNat = 0x39 := rfl
  omega

theorem val_lt (s : Bytes) (h : s.all isDigit = true) : val s < 10 ^ s.length := by
  induction s with
  | nil => simp [val]
  | cons c s ih =>
    simp only [List.all_cons, Bool.and_eq_true] at h
    have h1 := isDigit_bound h.1
    have h2 := ih h.2
    have : val (c :: s) = (c.toNat - 0x30) * 10 ^ s.length + val s := by
      have := val_append [c] s
      simpa [val] using this
    rw [this, List.length_cons, Nat.pow_succ]
    have : (c.toNat - 0x30) * 10 ^ s.length ≤ 9 * 10 ^ s.length := Nat.mul_le_mul_right _ (by omega)
    omega

theorem parseUint_eq (s : Bytes) (h : s.all isDigit = true) (hl : s.length ≤ 8) : parseUint s = val s := by
  unfold parseUint
  rw [if_pos h]
  have h1 := val_lt s h
  have h2 : 10 ^ s.length ≤ 10 ^ 8 := Nat.pow_le_pow_right (by decide) hl
  have : (10:Nat) ^ 8 < 2^64 - 1 := by decide
  show min (val s) _ = val s
  omega

/-! ## Character values -/

instance exceptDecEq {ε α : Type} [DecidableEq ε] [DecidableEq α] : DecidableEq (Except ε α)
  | .ok a, .ok b => decidable_of_iff (a = b) (by simp)
  | .error a, .error b => decidable_of_iff (a = b) (by simp)
  | .ok _, .error _ => isFalse (by simp)
  | .error _, .ok _ => isFalse (by simp)

theorem nextChar_spec (c : UInt8) :
    nextChar c = match charVal c with | some v => .ok (formatUint v) | none => .error .character := by
  refine forall_u8 (P := fun c => nextChar c = match charVal c with
    | some v => .ok (formatUint v) | none => .error .character) ?_ c
  decide +kernel

theorem charVal_lt {c : UInt8} {v : Nat} (h : charVal c = some v) : v < 36 := by
  unfold charVal at h
  split at h
  · simp at h; omega
  · split at h
    · simp at h; omega
    · split at h
      · simp at h; omega
      · cases h

/-- The digits written for a list of values. -/
def digits (vs : List Nat) : Bytes := vs.flatMap formatUint

theorem nextChars_spec (cs buf : Bytes) :
    nextChars cs buf = match values cs with | some vs => .ok (buf ++ digits vs) | none => .error .character := by
  induction cs generalizing buf with
  | nil => simp [nextChars, values, digits]
  | cons c cs ih =>
    simp only [nextChars, nextChar_spec, values]
    cases h : charVal c with
    | none => rfl
    | some v =>
      simp only [ih]
      cases values cs with
      | none => rfl
      | some vs => simp [digits]

theorem values_append (a b : Bytes) :
    values (a ++ b) = (values a).bind fun x => (values b).map fun y => x ++ y := by
  induction a with
  | nil => cases h : values b <;> simp [values, h]
  | cons c a ih =>
    simp only [List.cons_append, values, ih]
    cases charVal c <;> cases values a <;> cases values b <;> simp

theorem values_lt {cs : Bytes} {vs : List Nat} (h : values cs = some vs) : ∀ v ∈ vs, v < 36 := by
  induction cs generalizing vs with
  | nil => simp [values] at h; subst h; simp
  | cons c cs ih =>
    simp only [values] at h
    cases hc : charVal c with
    | none => simp [hc] at h
    | some v =>
      cases hs : values cs with
      | none => simp [hc, hs] at h
      | some ws =>
        simp only [hc, hs, Option.some.injEq] at h
        subst h
        intro x hx
        rcases List.mem_cons.mp hx with rfl | hx
        · exact charVal_lt hc
        · exact ih hs x hx

theorem values_length {cs : Bytes} {vs : List Nat} (h : values cs = some vs) : vs.length = cs.length := by
  induction cs generalizing vs with
  | nil => simp [values] at h; subst h; rfl
  | cons c cs ih =>
    simp only [values] at h
    cases hc : charVal c with
    | none => simp [hc] at h
    | some v =>
      cases hs : values cs with
      | none => simp [hc, hs] at h
      | some ws =>
        simp only [hc, hs, Option.some.injEq] at h
        subst h
        simp [ih hs]

theorem digits_all (vs : List Nat) : (digits vs).all isDigit = true := by
  induction vs with
  | nil => rfl
  | cons v vs ih =>
    simp only [digits, List.flatMap_cons, List.all_append, formatUint_digits, Bool.true_and]
    exact ih

theorem foldl_push (vs : List Nat) (h : ∀ v ∈ vs, v < 36) (acc : Nat) :
    vs.foldl push acc = acc * 10 ^ (digits vs).length + val (digits vs) := by
  induction vs generalizing acc with
  | nil => simp [digits, val]
  | cons v vs ih =>
    have hv := h v (by simp)
    simp only [List.foldl_cons, digits, List.flatMap_cons, List.length_append, val_append, val_formatUint]
    rw [ih (fun x hx => h x (by simp [hx]))]
    have e : push acc v = acc * 10 ^ (formatUint v).length + v := by
      rw [formatUint_len2 v (by omega)]; unfold push; split <;> simp
    rw [e, Nat.pow_add, Nat.add_mul, Nat.mul_assoc, Nat.add_assoc]
    rfl

theorem number_eq (vs : List Nat) (h : ∀ v ∈ vs, v < 36) : number vs = val (digits vs) := by
  rw [number, foldl_push vs h]; omega

theorem digits_length (vs : List Nat) : vs.length ≤ (digits vs).length := by
  induction vs with
  | nil => simp
  | cons v vs ih =>
    simp only [digits, List.flatMap_cons, List.length_append, List.length_cons] at *
    have : 1 ≤ (formatUint v).length := by
      unfold formatUint; split <;> simp
    omega

/-! ## The block loop -/

theorem mod_step (a b k : Nat) : (a % 97 * k + b) % 97 = (a * k + b) % 97 := by
  rw [Nat.add_mod, Nat.mul_mod, Nat.mod_mod, ← Nat.mul_mod, ← Nat.add_mod]

theorem block_eq (sum : Bytes) (offset : Nat) :
    (sum.take (if sum.length ≤ offset + 6 then sum.length else offset + 6)).drop offset = (sum.drop offset).take 6 := by
  rw [List.drop_take]
  split
  · rename_i h
    rw [List.take_of_length_le (by simp), List.take_of_length_le (by simp; omega)]
  · congr 1; omega

theorem all_take_drop {s : Bytes} (h : s.all isDigit = true) (m n : Nat) : ((s.drop m).take n).all isDigit = true := by
  rw [List.all_eq_true] at *
  intro x hx
  exact h x (List.mem_of_mem_drop (List.mem_of_mem_take hx))

theorem checkLoop_spec (sum : Bytes) (hd : sum.all isDigit = true) : ∀ (n i : Nat) (tmp : Bytes),
    tmp.all isDigit = true → tmp.length ≤ 2 → sum.length ≤ 6 * (i + n + 1) → 6 * (i + n) ≤ sum.length →
    checkLoop sum n i tmp = some (UInt8.ofNat (val (tmp ++ sum.drop (i * 6)) % 97)) := by
  intro n
  induction n with
  | zero =>
    intro i tmp ht hl hs hs2
    unfold checkLoop
    simp only [block_eq]
    rw [if_neg (by split <;> omega)]
    have e : (sum.drop (i * 6)).take 6 = sum.drop (i * 6) := List.take_of_length_le (by simp; omega)
    rw [e, parseUint_eq]
    · rw [List.all_append, ht, Bool.true_and, ← e]; exact all_take_drop hd _ _
    · simp; omega
  | succ n ih =>
    intro i tmp ht hl hs hs2
    unfold checkLoop
    simp only [block_eq]
    rw [if_neg (by split <;> omega)]
    have hblk := all_take_drop hd (i*6) 6
    rw [parseUint_eq (tmp ++ (sum.drop (i*6)).take 6) (by rw [List.all_append, ht, hblk]; rfl) (by simp; omega)]
    rw [ih (i+1) _ (formatUint_digits _) ?_ (by omega) (by omega)]
    · congr 2
      have e : sum.drop (i * 6) = (sum.drop (i*6)).take 6 ++ sum.drop ((i+1)*6) := by
        have := List.take_append_drop 6 (sum.drop (i*6))
        rw [List.drop_drop] at this
        rw [show (i+1)*6 = i*6+6 by omega]; exact this.symm
      rw [val_append, val_formatUint, mod_step]
      conv => rhs; rw [e, ← List.append_assoc, val_append]
    · have hlt : val (tmp ++ (sum.drop (i*6)).take 6) % 97 < 97 := Nat.mod_lt _ (by decide)
      rw [formatUint_len2 _ (by omega)]; split <;> omega

/-- `addressCheck` computes the specification's checksum and fails exactly on non-alphanumeric characters. -/
theorem addressCheck_spec (t : Bytes) :
    addressCheck t = match checksum t with
      | some v => .ok (UInt8.ofNat v)
      | none => .error .character := by
  unfold addressCheck checksum rearrange
  simp only [nextChars_spec, values_append]
  cases h1 : values (t.drop 4) with
  | none => rfl
  | some vs =>
    cases h2 : values (t.take 4) with
    | none => rfl
    | some ws =>
      simp only [List.nil_append, Option.bind_some, Option.map_some]
      have hd : digits vs ++ digits ws = digits (vs ++ ws) := by simp [digits]
      have hlt : ∀ v ∈ vs ++ ws, v < 36 := by
        intro v hv
        rcases List.mem_append.mp hv with h | h
        · exact values_lt h1 v h
        · exact values_lt h2 v h
      have hlen := digits_length (vs ++ ws)
      have hl2 : (vs ++ ws).length = t.length := by
        rw [List.length_append, values_length h1, values_length h2]; simp; omega
      rw [hd, checkLoop_spec _ (digits_all _) _ 0 [] rfl (by simp) (by omega) (by omega), number_eq _ hlt]
      simp

theorem checksum_lt {t : Bytes} {v : Nat} (h : checksum t = some v) : v < 97 := by
  unfold checksum at h
  cases hv : values (rearrange t) with
  | none => simp [hv] at h
  | some vs => simp [hv] at h; omega

end Nimiq.Address
