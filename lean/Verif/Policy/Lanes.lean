import Mathlib.Logic.Function.Iterate
import Mathlib.Tactic.Ring
import Verif.Policy.Emission
/-! # The exact emission curve, computed in the kernel

Before the tail `rem (h+1) = rem h - rem h / 2^22`; for `u = rem - (2^22-1)` that is `u ↦ u·(2^22-1) / 2^22`.  Almost 49 million
such steps have to be made.  Many equally long stretches are computed at once by packing their current values into one
large natural number (lanes of 80 bits); a list of claimed start values is accepted if every stretch ends where the next
one starts. -/
namespace Nimiq.Policy

/-- One block, on `u = rem - (2^22-1)`. -/
def shrink (u : Nat) : Nat := u * 4194303 / 4194304

/-- Lanes of 80 bits. -/
def pack : List Nat → Nat
  | [] => 0
  | x :: l => x + 2 ^ 80 * pack l

theorem pack_mul (c : Nat) (l : List Nat) : pack l * c = pack (l.map (· * c)) := by
  induction l with
  | nil => simp [pack]
  | cons x l ih => simp only [pack, List.map_cons, ← ih]; ring_nf

theorem pack_split (m : Nat) (l : List Nat) : pack l = m * pack (l.map (· / m)) + pack (l.map (· % m)) := by
  induction l with
  | nil => simp [pack]
  | cons x l ih =>
    simp only [pack, List.map_cons]
    rw [ih, Nat.mul_add, Nat.mul_add]
    have := Nat.div_add_mod x m
    have e : m * (2 ^ 80 * pack (l.map (· / m))) = 2 ^ 80 * (m * pack (l.map (· / m))) := by ring_nf
    rw [e]
    generalize pack (l.map (· / m)) = a at *
    generalize pack (l.map (· % m)) = b at *
    omega

theorem land_lane (x y a b : Nat) (hx : x < 2 ^ 80) (ha : a < 2 ^ 80) :
    (x + 2 ^ 80 * y) &&& (a + 2 ^ 80 * b) = (x &&& a) + 2 ^ 80 * (y &&& b) := by
  have hxa : x &&& a < 2 ^ 80 := Nat.and_lt_two_pow _ ha
  apply Nat.eq_of_testBit_eq
  intro i
  rw [Nat.testBit_and, Nat.add_comm x, Nat.add_comm a, Nat.add_comm (x &&& a),
    Nat.testBit_two_pow_mul_add _ hx, Nat.testBit_two_pow_mul_add _ ha, Nat.testBit_two_pow_mul_add _ hxa]
  split
  · rw [Nat.testBit_and]
  · rw [Nat.testBit_and]

theorem pack_land (k : Nat) (hk : k < 80) (l : List Nat) (hl : ∀ x ∈ l, x < 2 ^ 80) :
    pack l &&& pack (List.replicate l.length (2 ^ k - 1)) = pack (l.map (· % 2 ^ k)) := by
  induction l with
  | nil => simp [pack]
  | cons x l ih =>
    simp only [pack, List.length_cons, List.replicate_succ, List.map_cons]
    rw [land_lane _ _ _ _ (hl x (by simp)), ih (fun y hy => hl y (by simp [hy])), Nat.and_two_pow_sub_one_eq_mod]
    have h1 : 2 ^ k < 2 ^ 80 := Nat.pow_lt_pow_right (by decide) hk
    omega

theorem pack_inj {l l' : List Nat} (hlen : l.length = l'.length) (hl : ∀ x ∈ l, x < 2 ^ 80) (hl' : ∀ x ∈ l', x < 2 ^ 80)
    (h : pack l = pack l') : l = l' := by
  induction l generalizing l' with
  | nil => cases l' with
    | nil => rfl
    | cons => simp at hlen
  | cons x l ih => cases l' with
    | nil => simp at hlen
    | cons y l' =>
      simp only [pack] at h
      have hx := hl x (by simp)
      have hy := hl' y (by simp)
      have h1 : x = y := by omega
      have h2 : pack l = pack l' := by omega
      rw [h1, ih (by simpa using hlen) (fun z hz => hl z (by simp [hz])) (fun z hz => hl' z (by simp [hz])) h2]

/-- One block in every lane. -/
def stepP (mask p : Nat) : Nat := Nat.div (Nat.sub (Nat.mul p 4194303) (Nat.land (Nat.mul p 4194303) mask)) 4194304

theorem stepP_pack (l : List Nat) (hl : ∀ x ∈ l, x < 2 ^ 51) :
    stepP (pack (List.replicate l.length (2 ^ 22 - 1))) (pack l) = pack (l.map shrink) := by
  show (pack l * 4194303 - (pack l * 4194303 &&& _)) / 4194304 = _
  rw [pack_mul, show l.length = (l.map (· * 4194303)).length by simp, pack_land 22 (by decide)]
  · rw [show (2 : Nat) ^ 22 = 4194304 by norm_num]
    have := pack_split 4194304 (l.map (· * 4194303))
    generalize pack ((l.map (· * 4194303)).map (· % 4194304)) = b at *
    rw [this, Nat.add_sub_cancel, Nat.mul_div_cancel_left _ (by decide), List.map_map]
    rfl
  · intro x hx
    obtain ⟨y, hy, rfl⟩ := List.mem_map.mp hx
    have := hl y hy
    omega

theorem shrink_le (u : Nat) : shrink u ≤ u := by unfold shrink; omega

/-- Evaluates `r` before going on with `k`. -/
def force (r : Nat) (k : Nat → Nat) : Nat := Nat.rec (motive := fun _ => Nat) (k 0) (fun n _ => k (Nat.succ n)) r

theorem force_eq (r : Nat) (k : Nat → Nat) : force r k = k r := by cases r <;> rfl

/-- `2^d` blocks in every lane. -/
def run (mask d : Nat) : Nat → Nat :=
  Nat.rec (motive := fun _ => Nat → Nat) (stepP mask) (fun _ ih p => force (ih p) ih) d

theorem iter_lt (n : Nat) (l : List Nat) (hl : ∀ x ∈ l, x < 2 ^ 51) : ∀ x ∈ l.map (shrink^[n]), x < 2 ^ 51 := by
  intro x hx
  obtain ⟨y, hy, rfl⟩ := List.mem_map.mp hx
  have h1 : ∀ n, shrink^[n] y ≤ y := by
    intro n
    induction n with
    | zero => exact le_rfl
    | succ n ih => rw [Function.iterate_succ_apply']; exact le_trans (shrink_le _) ih
  exact lt_of_le_of_lt (h1 n) (hl y hy)

theorem run_pack (d : Nat) (l : List Nat) (hl : ∀ x ∈ l, x < 2 ^ 51) :
    run (pack (List.replicate l.length (2 ^ 22 - 1))) d (pack l) = pack (l.map (shrink^[2 ^ d])) := by
  induction d generalizing l with
  | zero => exact stepP_pack l hl
  | succ d ih =>
    show force (run _ d (pack l)) (run _ d) = _
    rw [force_eq, ih l hl]
    have h2 := ih (l.map (shrink^[2 ^ d])) (iter_lt _ l hl)
    rw [List.length_map] at h2
    rw [h2, List.map_map]
    congr 2
    rw [← Function.iterate_add]
    congr 1
    rw [Nat.pow_succ]; omega

/-- The claimed values fit, and every stretch of `2^d` blocks ends where the next one starts, the last one in `last`. -/
def check (d : Nat) (l : List Nat) (last : Nat) : Bool :=
  l.all (fun x => Nat.blt x 2251799813685248) && Nat.blt last 2251799813685248 &&
    Nat.beq (run (pack (l.map fun _ => 4194303)) d (pack l)) (pack (l.tail ++ [last]))

theorem chain_of_eq (f : Nat → Nat) (a : Nat) (l : List Nat) (last : Nat) (h : (a :: l).map f = l ++ [last]) :
    f^[l.length + 1] a = last := by
  induction l generalizing a with
  | nil => simpa using h
  | cons b l ih =>
    simp only [List.map_cons, List.cons_append, List.cons.injEq] at h
    rw [List.length_cons, Function.iterate_succ_apply, h.1]
    exact ih b (by simpa using h.2)

theorem check_sound {d : Nat} {a : Nat} {l : List Nat} {last : Nat} (h : check d (a :: l) last = true) :
    shrink^[2 ^ d * (l.length + 1)] a = last := by
  simp only [check, Bool.and_eq_true, List.all_eq_true] at h
  obtain ⟨⟨h1, h2⟩, h3⟩ := h
  have h1' : ∀ x ∈ a :: l, x < 2 ^ 51 := fun x hx => by
    have := h1 x hx
    rw [Nat.blt_eq] at this
    exact this
  rw [Nat.blt_eq] at h2
  have h3 := Nat.eq_of_beq_eq_true h3
  have e : (a :: l).map (fun _ => 4194303) = List.replicate (a :: l).length (2 ^ 22 - 1) := by
    rw [List.map_const', show (4194303 : Nat) = 2 ^ 22 - 1 by norm_num]
  rw [e, run_pack d _ h1', List.tail_cons] at h3
  have h4 := pack_inj (by simp) (fun x hx => lt_trans (iter_lt _ _ h1' x hx) (by decide)) (fun x hx => by
    rcases List.mem_append.mp hx with hx | hx
    · exact lt_trans (h1' x (by simp [hx])) (by decide)
    · have : x = last := by simpa using hx
      subst this
      exact lt_trans h2 (by decide)) h3
  rw [Function.iterate_mul]
  exact chain_of_eq _ _ _ _ h4

theorem check_curve {d : Nat} {l : List Nat} {last a n : Nat} (h : check d l last = true) (ha : l.head? = some a)
    (hn : 2 ^ d * l.length = n) : shrink^[n] a = last := by
  cases l with
  | nil => cases ha
  | cons b l =>
    cases ha
    rw [← hn]
    exact check_sound h

/-- Two stretches in a row. -/
theorem iter_glue {m n k a b c : Nat} (h1 : shrink^[m] a = b) (h2 : shrink^[n] b = c) (hk : n + m = k) :
    shrink^[k] a = c := by
  rw [← hk, Function.iterate_add_apply, h1, h2]

end Nimiq.Policy
