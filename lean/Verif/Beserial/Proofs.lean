import Verif.Beserial.Spec
/-!
# Correctness of the codec
-/
namespace Nimiq.Beserial
open Spec

/-! ## Numbers -/

theorem putBE_length (n x : Nat) : (putBE n x).length = n := by
  induction n with
  | zero => rfl
  | succ n ih => simp [putBE, ih]

theorem putBE_eq_digits (n x : Nat) : putBE n x = digits n x := by
  induction n with
  | zero => rfl
  | succ n ih =>
    rw [putBE, ih]
    unfold digits
    rw [List.range_succ_eq_map, List.map_cons, List.map_map]
    simp only [Nat.add_sub_cancel, Nat.sub_zero, List.cons.injEq, true_and]
    apply List.map_congr_left
    intro i hi
    simp only [Function.comp]
    have e : n - (i + 1) = n - 1 - i := by omega
    rw [Nat.succ_eq_add_one, e]

theorem foldl_acc (b : Bytes) : ∀ acc : Nat,
    b.foldl (fun acc d => 256 * acc + d.toNat) acc = acc * 256 ^ b.length + getBE b := by
  unfold getBE
  induction b with
  | nil => intro acc; simp
  | cons d b ih =>
    intro acc
    simp only [List.foldl_cons, List.length_cons]
    rw [ih, ih (256 * 0 + d.toNat)]
    rw [Nat.pow_succ, Nat.mul_zero, Nat.zero_add, Nat.add_mul, Nat.add_assoc]
    congr 1
    rw [Nat.mul_comm 256 acc, Nat.mul_assoc, Nat.mul_comm 256]

theorem getBE_cons (d : UInt8) (b : Bytes) : getBE (d :: b) = d.toNat * 256 ^ b.length + getBE b := by
  have := foldl_acc b d.toNat
  simp only [getBE, List.foldl_cons, Nat.mul_zero, Nat.zero_add] at this ⊢
  exact this

theorem getBE_lt (b : Bytes) : getBE b < 256 ^ b.length := by
  induction b with
  | nil => simp [getBE]
  | cons d b ih =>
    rw [getBE_cons, List.length_cons, Nat.pow_succ]
    have hd := d.toNat_lt
    have : d.toNat * 256 ^ b.length ≤ 255 * 256 ^ b.length := Nat.mul_le_mul_right _ (by omega)
    omega

theorem getBE_putBE (n x : Nat) : getBE (putBE n x) = x % 256 ^ n := by
  induction n with
  | zero => simp [putBE, getBE, Nat.mod_one]
  | succ n ih =>
    rw [putBE, getBE_cons, ih, putBE_length, UInt8.toNat_ofNat']
    have p : 256 ^ (n + 1) = 256 ^ n * 256 := Nat.pow_succ ..
    have e := Nat.mod_mul (x := x) (a := 256 ^ n) (b := 256)
    rw [p, e, Nat.mul_comm (256 ^ n) (x / 256 ^ n % 256), Nat.add_comm]

theorem putBE_getBE (b : Bytes) : putBE b.length (getBE b) = b := by
  have key : ∀ (b : Bytes) (k : Nat), putBE b.length (k * 256 ^ b.length + getBE b) = b := by
    intro b
    induction b with
    | nil => intro k; rfl
    | cons d b ih =>
      intro k
      rw [List.length_cons, putBE, getBE_cons]
      have hlt := getBE_lt b
      have hpos : 0 < 256 ^ b.length := Nat.pow_pos (by decide)
      have e : k * 256 ^ (b.length + 1) + (d.toNat * 256 ^ b.length + getBE b) =
          (k * 256 + d.toNat) * 256 ^ b.length + getBE b := by
        rw [Nat.pow_succ, Nat.add_mul, Nat.mul_assoc, Nat.mul_comm (256 ^ b.length) 256, Nat.add_assoc]
      rw [e]
      congr 1
      · rw [Nat.mul_comm (k * 256 + d.toNat), Nat.mul_add_div hpos, Nat.div_eq_of_lt hlt]
        apply UInt8.toNat_inj.mp
        rw [UInt8.toNat_ofNat']
        have := d.toNat_lt
        omega
      · exact ih _
  simpa using key b 0

theorem getBE_putBE_of_lt {n x : Nat} (h : x < 256 ^ n) : getBE (putBE n x) = x := by
  rw [getBE_putBE, Nat.mod_eq_of_lt h]

theorem twos_eq {w : Nat} {i : Int} (h1 : -2 ^ w ≤ 2 * i) (h2 : 2 * i < 2 ^ w) : twos w i = (i % 2 ^ w).toNat := by
  unfold twos
  split
  · rename_i h
    rw [Int.emod_eq_of_lt h (by omega)]
  · rename_i h
    congr 1
    rw [← Int.add_emod_left]
    rw [Int.emod_eq_of_lt (by omega) (by omega)]

theorem putNum_eq (k : NumKind) (v : k.Val) : putNum k v = Spec.num k v := by
  cases k <;> simp only [putNum, Spec.num, putBE_eq_digits]
  all_goals
    congr 1
    symm
    apply twos_eq
  · have := Int8.le_toInt v; omega
  · have := Int8.toInt_lt v; omega
  · have := Int16.le_toInt v; omega
  · have := Int16.toInt_lt v; omega
  · have := Int32.le_toInt v; omega
  · have := Int32.toInt_lt v; omega
  · have := Int64.le_toInt v; omega
  · have := Int64.toInt_lt v; omega

theorem num_length (k : NumKind) (v : k.Val) : (Spec.num k v).length = k.size := by
  rw [← putNum_eq]; cases k <;> simp [putNum, putBE_length, NumKind.size]

theorem getNum_putNum (k : NumKind) (v : k.Val) : getNum k (putNum k v) = v := by
  cases k <;> simp only [putNum, getNum]
  · rw [getBE_putBE_of_lt (by have := v.toNat_lt; omega)]; simp
  · rw [getBE_putBE_of_lt (by have := v.toNat_lt; omega)]; simp
  · rw [getBE_putBE_of_lt (by have := v.toNat_lt; omega)]; simp
  · rw [getBE_putBE_of_lt (by have := v.toNat_lt; omega)]; simp
  · rw [getBE_putBE_of_lt (by omega), Int.toNat_of_nonneg (by omega)]
    apply Int8.toInt_inj.mp
    simp only [Int8.toInt_ofInt, Int8.size, Int.bmod_def]
    have := Int8.le_toInt v; have := Int8.toInt_lt v
    omega
  · rw [getBE_putBE_of_lt (by omega), Int.toNat_of_nonneg (by omega)]
    apply Int16.toInt_inj.mp
    simp only [Int16.toInt_ofInt, Int16.size, Int.bmod_def]
    have := Int16.le_toInt v; have := Int16.toInt_lt v
    omega
  · rw [getBE_putBE_of_lt (by omega), Int.toNat_of_nonneg (by omega)]
    apply Int32.toInt_inj.mp
    simp only [Int32.toInt_ofInt, Int32.size, Int.bmod_def]
    have := Int32.le_toInt v; have := Int32.toInt_lt v
    omega
  · rw [getBE_putBE_of_lt (by omega), Int.toNat_of_nonneg (by omega)]
    apply Int64.toInt_inj.mp
    simp only [Int64.toInt_ofInt, Int64.size, Int.bmod_def]
    have := Int64.le_toInt v; have := Int64.toInt_lt v
    omega

theorem putNum_getNum (k : NumKind) (b : Bytes) (h : b.length = k.size) : putNum k (getNum k b) = b := by
  have hlt := getBE_lt b
  have hid := putBE_getBE b
  rw [h] at hlt hid
  have key : ∀ x, x = getBE b → putBE k.size x = b := by rintro x rfl; exact hid
  cases k <;> simp only [putNum, getNum, NumKind.size] at *
  · apply key; rw [UInt8.toNat_ofNat']; omega
  · apply key; rw [UInt16.toNat_ofNat']; omega
  · apply key; rw [UInt32.toNat_ofNat']; omega
  · apply key; rw [UInt64.toNat_ofNat']; omega
  · apply key
    simp only [Int8.toInt_ofInt, Int8.size, Int.bmod_def]; omega
  · apply key
    simp only [Int16.toInt_ofInt, Int16.size, Int.bmod_def]; omega
  · apply key
    simp only [Int32.toInt_ofInt, Int32.size, Int.bmod_def]; omega
  · apply key
    simp only [Int64.toInt_ofInt, Int64.size, Int.bmod_def]; omega

end Nimiq.Beserial
