import Verif.Address.Proofs
/-! # Lemmas for the error detection properties -/
namespace Nimiq.Address
open Spec


theorem cancel10 (k : Nat) : ∀ x y R : Nat, (x * 10 ^ k + R) % 97 = (y * 10 ^ k + R) % 97 → x % 97 = y % 97 := by
  induction k with
  | zero => intro x y R h; simp at h; omega
  | succ k ih =>
    intro x y R h
    have e : ∀ z : Nat, z * 10 ^ (k+1) = (z * 10) * 10 ^ k := by
      intro z; rw [Nat.pow_succ, Nat.mul_comm (10^k), Nat.mul_assoc]
    rw [e, e] at h
    have := ih (x * 10) (y * 10) R h
    omega

theorem number_split (r : List Nat) (hr : ∀ v ∈ r, v < 36) (x y : Nat)
    (h : r.foldl push x % 97 = r.foldl push y % 97) : x % 97 = y % 97 := by
  rw [foldl_push r hr, foldl_push r hr] at h
  exact cancel10 _ _ _ _ h

theorem values_set {cs : Bytes} {vs : List Nat} (h : values cs = some vs) (i : Nat) (c : UInt8) (v : Nat)
    (hc : charVal c = some v) : values (cs.set i c) = some (vs.set i v) := by
  induction cs generalizing vs i with
  | nil => simp [values] at h; subst h; rfl
  | cons d cs ih =>
    simp only [values] at h
    cases h1 : charVal d with
    | none => simp [h1] at h
    | some w =>
      cases h2 : values cs with
      | none => simp [h1, h2] at h
      | some ws =>
        simp only [h1, h2, Option.some.injEq] at h
        subst h
        cases i with
        | zero => simp [values, hc, h2]
        | succ i => simp [values, h1, ih h2]

theorem values_get {cs : Bytes} {vs : List Nat} (h : values cs = some vs) (i : Nat) (c : UInt8) (hi : cs[i]? = some c) :
    ∃ v, charVal c = some v ∧ vs[i]? = some v := by
  induction cs generalizing vs i with
  | nil => simp at hi
  | cons d cs ih =>
    simp only [values] at h
    cases h1 : charVal d with
    | none => simp [h1] at h
    | some w =>
      cases h2 : values cs with
      | none => simp [h1, h2] at h
      | some ws =>
        simp only [h1, h2, Option.some.injEq] at h
        subst h
        cases i with
        | zero => simp at hi; subst hi; exact ⟨w, h1, rfl⟩
        | succ i => simp at hi; simpa using ih h2 i hi

theorem rearrange_get' (t : Bytes) (ht : t.length = 36) (j : Nat) :
    (rearrange t)[j]? = if j < 32 then t[j+4]? else if j < 36 then t[j-32]? else none := by
  unfold rearrange
  rw [List.getElem?_append, List.length_drop, ht]
  by_cases h : j < 32
  · rw [if_pos h, if_pos h, List.getElem?_drop, Nat.add_comm]
  · rw [if_neg h, if_neg h, List.getElem?_take]
    by_cases h2 : j < 36
    · rw [if_pos h2, if_pos (by omega)]
    · rw [if_neg h2, if_neg (by omega)]

theorem rearrange_set (t : Bytes) (ht : t.length = 36) (i : Nat) (hi : i < 36) (c : UInt8) :
    rearrange (t.set i c) = (rearrange t).set (if i < 4 then i + 32 else i - 4) c := by
  apply List.ext_getElem?
  intro j
  have hl : (rearrange t).length = 36 := by simp [rearrange, ht]
  rw [rearrange_get' _ (by simpa using ht)]
  simp only [List.getElem?_set, ht, hl]
  rw [rearrange_get' t ht]
  by_cases h4 : i < 4
  · simp only [h4, if_true]
    by_cases hj : j < 32
    · rw [if_pos hj, if_pos hj, if_neg (by omega), if_neg (by omega)]
    · rw [if_neg hj, if_neg hj]
      by_cases hj2 : j < 36
      · rw [if_pos hj2, if_pos hj2]
        by_cases e : i = j - 32
        · rw [if_pos e, if_pos (by omega), if_pos (by omega), if_pos (by omega)]
        · rw [if_neg e, if_neg (by omega)]
      · rw [if_neg hj2, if_neg hj2, if_neg (by omega)]
  · simp only [h4, if_false]
    by_cases hj : j < 32
    · rw [if_pos hj, if_pos hj]
      by_cases e : i = j + 4
      · rw [if_pos e, if_pos (by omega), if_pos (by omega), if_pos (by omega)]
      · rw [if_neg e, if_neg (by omega)]
    · rw [if_neg hj, if_neg hj]
      by_cases hj2 : j < 36
      · rw [if_pos hj2, if_pos hj2, if_neg (by omega), if_neg (by omega)]
      · rw [if_neg hj2, if_neg hj2, if_neg (by omega)]

theorem rearrange_get (t : Bytes) (ht : t.length = 36) (i : Nat) (hi : i < 36) :
    (rearrange t)[if i < 4 then i + 32 else i - 4]? = t[i]? := by
  rw [rearrange_get' t ht]
  by_cases h4 : i < 4
  · rw [if_pos h4, if_neg (by omega), if_pos (by omega)]; congr 1
  · rw [if_neg h4, if_pos (by omega)]; congr 1; omega

theorem split_at {vs : List Nat} {i v : Nat} (h : vs[i]? = some v) :
    vs = vs.take i ++ v :: vs.drop (i+1) ∧ ∀ w, vs.set i w = vs.take i ++ w :: vs.drop (i+1) := by
  have hi : i < vs.length := by
    rcases Nat.lt_or_ge i vs.length with h1 | h1
    · exact h1
    · rw [List.getElem?_eq_none h1] at h; cases h
  rw [List.getElem?_eq_getElem hi] at h
  injection h with h
  constructor
  · rw [← h]; simp
  · intro w; exact List.set_eq_take_append_cons_drop .. |>.trans (by rw [if_pos hi])

theorem split_two {vs : List Nat} {j x y : Nat} (e2 : vs[j]? = some x) (f2 : vs[j+1]? = some y) :
    vs = vs.take j ++ x :: y :: vs.drop (j+2) ∧ (vs.set j y).set (j+1) x = vs.take j ++ y :: x :: vs.drop (j+2) := by
  have hjl : j + 1 < vs.length := by
    rcases Nat.lt_or_ge (j+1) vs.length with h | h
    · exact h
    · rw [List.getElem?_eq_none h] at f2; cases f2
  have s1 := split_at e2
  have h3 : vs.drop (j+1) = y :: vs.drop (j+2) := by
    rw [List.drop_eq_getElem_cons hjl]
    rw [List.getElem?_eq_getElem hjl] at f2
    injection f2 with f2
    rw [f2]
  have htl : (vs.take j).length = j := by simp; omega
  constructor
  · have := s1.1
    rw [h3] at this
    exact this
  · rw [s1.2 y, h3, List.set_append_right _ _ (by omega), htl, show j + 1 - j = 1 by omega]
    rfl

theorem swap_values (x y acc : Nat) (hx : x < 36) (hy : y < 36) :
    push (push acc x) y % 97 = push (push acc y) x % 97 ↔
      x = y ∨ (x = 1 ∧ y = 11) ∨ (x = 11 ∧ y = 1) ∨ (x = 2 ∧ y = 22) ∨ (x = 22 ∧ y = 2) ∨ (x = 3 ∧ y = 33) ∨ (x = 33 ∧ y = 3) := by
  have fin : ∀ x y : Fin 36,
      (push (push 0 x.val) y.val % 97 = push (push 0 y.val) x.val % 97 ↔
        x.val = y.val ∨ (x.val = 1 ∧ y.val = 11) ∨ (x.val = 11 ∧ y.val = 1) ∨ (x.val = 2 ∧ y.val = 22) ∨
        (x.val = 22 ∧ y.val = 2) ∨ (x.val = 3 ∧ y.val = 33) ∨ (x.val = 33 ∧ y.val = 3)) := by decide +kernel
  rw [← fin ⟨x, hx⟩ ⟨y, hy⟩]
  have lin : ∃ K, (∀ a, push (push a x) y = a * K + push (push 0 x) y) ∧ (∀ a, push (push a y) x = a * K + push (push 0 y) x) := by
    unfold push
    by_cases h1 : x < 10 <;> by_cases h2 : y < 10 <;> simp only [h1, h2, if_true, if_false]
    · exact ⟨100, fun a => by omega, fun a => by omega⟩
    · exact ⟨1000, fun a => by omega, fun a => by omega⟩
    · exact ⟨1000, fun a => by omega, fun a => by omega⟩
    · exact ⟨10000, fun a => by omega, fun a => by omega⟩
  obtain ⟨K, k1, k2⟩ := lin
  rw [k1 acc, k2 acc]
  generalize acc * K = A
  generalize push (push 0 x) y = p
  generalize push (push 0 y) x = q
  omega

end Nimiq.Address
