import Verif.Tree.Fast
import Verif.Genesis.Packed
import Verif.Genesis.Props
/-!
# The entries of a genesis tree, as numbers
-/
namespace Nimiq.Genesis
open Beserial Wire Accounts Beserial.Spec Tree.Fast

/-- The `k` lowest base `b` digits of a number, highest first. -/
def numerals (b : Nat) : Nat → Nat → List Nat
  | 0, _ => []
  | k + 1, a => Nat.mod (Nat.div a (Nat.pow b k)) b :: numerals b k a

/-- The bytes of an account. -/
def Row.value : Row → List Nat
  | .b _ x => nat_lit 0 :: numerals (nat_lit 256) 8 x
  | .v _ x o s sb sa t => nat_lit 1 :: (numerals (nat_lit 256) 8 x ++ (numerals (nat_lit 256) 20 o ++
      (numerals (nat_lit 256) 4 s ++ (numerals (nat_lit 256) 4 sb ++ (numerals (nat_lit 256) 8 sa ++ numerals (nat_lit 256) 8 t)))))

def Row.leaf (r : Row) : Entry := (numerals (nat_lit 16) 40 r.addr, r.value)

/-- The account is not the one of an absent address. -/
def Row.solid : Row → Bool
  | .b _ x => Nat.ble 1 x
  | .v .. => true

def allSolid : List Row → Bool
  | [] => true
  | r :: l => r.solid && allSolid l

theorem allSolid_mem {l : List Row} (h : allSolid l = true) : ∀ r ∈ l, r.solid = true := by
  induction l with
  | nil => simp
  | cons r l ih =>
    simp only [allSolid, Bool.and_eq_true] at h
    intro x hx
    rcases List.mem_cons.mp hx with rfl | hx
    · exact h.1
    · exact ih h.2 x hx

theorem digits_succ (k x : Nat) : digits (k + 1) x = UInt8.ofNat (x / 256 ^ k) :: digits k x := by
  unfold digits
  rw [List.range_succ_eq_map, List.map_cons, List.map_map]
  congr 1
  apply List.map_congr_left
  intro i hi
  rw [List.mem_range] at hi
  simp only [Function.comp]
  congr 3
  omega

theorem digits_numerals (k x : Nat) : (digits k x).map (·.toNat) = numerals 256 k x := by
  induction k with
  | zero => rfl
  | succ k ih =>
    rw [digits_succ, List.map_cons, ih, numerals, UInt8.toNat_ofNat']
    rfl

theorem nibbles_numerals (k x : Nat) :
    ((digits k x).flatMap fun b => [Fin.ofNat 16 (b.toNat / 16), Fin.ofNat 16 (b.toNat % 16)]) = (numerals 16 (2 * k) x).map F := by
  induction k with
  | zero => rfl
  | succ k ih =>
    rw [digits_succ, List.flatMap_cons, ih, show 2 * (k + 1) = 2 * k + 1 + 1 from rfl, numerals, numerals]
    simp only [List.map_cons, List.cons_append, List.nil_append, UInt8.toNat_ofNat']
    have e : (256 : Nat) ^ k = 16 ^ (2 * k) := by rw [Nat.pow_mul]
    have h1 : x / 256 ^ k % 2 ^ 8 / 16 = Nat.mod (Nat.div x (Nat.pow 16 (2 * k + 1))) 16 := by
      show x / 256 ^ k % 2 ^ 8 / 16 = x / 16 ^ (2 * k + 1) % 16
      rw [e, Nat.pow_succ 16 (2 * k), ← Nat.div_div_eq_div_mul]
      omega
    have h2 : x / 256 ^ k % 2 ^ 8 % 16 = Nat.mod (Nat.div x (Nat.pow 16 (2 * k))) 16 := by
      show x / 256 ^ k % 2 ^ 8 % 16 = x / 16 ^ (2 * k) % 16
      rw [e]
      omega
    rw [h1, h2]

theorem addr_numerals (x : Nat) : Tree.keyNibs (addrOf x) = (numerals 16 40 x).map F := by
  rw [Tree.keyNibs_eq]
  exact nibbles_numerals 20 x

theorem numerals_length (b k x : Nat) : (numerals b k x).length = k := by
  induction k with
  | zero => rfl
  | succ k ih => simp [numerals, ih]

theorem numerals_small (b k x : Nat) (hb : 0 < b) : ∀ n ∈ numerals b k x, n < b := by
  induction k with
  | zero => simp [numerals]
  | succ k ih =>
    intro n hn
    rcases List.mem_cons.mp hn with rfl | hn
    · exact Nat.mod_lt _ hb
    · exact ih n hn

theorem value_eq {r : Row} (h : fit r.parts = true) : (accountLayout r.account).map (·.toNat) = r.value := by
  cases r with
  | b a x =>
    simp only [Row.parts, fit, Bool.and_eq_true, Nat.ble_eq] at h
    have hx : (UInt64.ofNat x).toNat = x := by rw [UInt64.toNat_ofNat']; exact Nat.mod_eq_of_lt (by omega)
    simp only [Row.account, accountLayout, Row.value, hx, List.map_append, digits_numerals]
    rfl
  | v a x o s sb sa t =>
    simp only [Row.parts, fit, Bool.and_eq_true, Nat.ble_eq] at h
    have hx : (UInt64.ofNat x).toNat = x := by rw [UInt64.toNat_ofNat']; exact Nat.mod_eq_of_lt (by omega)
    have hsa : (UInt64.ofNat sa).toNat = sa := by rw [UInt64.toNat_ofNat']; exact Nat.mod_eq_of_lt (by omega)
    have ht : (UInt64.ofNat t).toNat = t := by rw [UInt64.toNat_ofNat']; exact Nat.mod_eq_of_lt (by omega)
    have hs : (UInt32.ofNat s).toNat = s := by rw [UInt32.toNat_ofNat']; exact Nat.mod_eq_of_lt (by omega)
    have hsb : (UInt32.ofNat sb).toNat = sb := by rw [UInt32.toNat_ofNat']; exact Nat.mod_eq_of_lt (by omega)
    simp only [Row.account, accountLayout, Row.value, hx, hsa, ht, hs, hsb, List.map_append, digits_numerals, addrOf,
      List.append_assoc]
    rfl

theorem solid_ne {r : Row} (h : fit r.parts = true) (hs : r.solid = true) : r.account ≠ .basic ⟨0⟩ := by
  cases r with
  | v => simp [Row.account]
  | b a x =>
    simp only [Row.parts, fit, Bool.and_eq_true, Nat.ble_eq] at h
    simp only [Row.solid, Nat.ble_eq] at hs
    intro he
    simp only [Row.account, Account.basic.injEq, BasicAccount.mk.injEq] at he
    have := congrArg UInt64.toNat he
    rw [UInt64.toNat_ofNat', Nat.mod_eq_of_lt (by omega)] at this
    simp at this
    omega

/-- The rows describe the mapping. -/
theorem covers {M : Tree.Spec.Mapping} {rows : List Row} (hf : ∀ r ∈ rows, fit r.parts = true)
    (hd : (rows.map Row.addr).Nodup) (ha : ∀ r ∈ rows, r.addr < 256 ^ 20)
    (hv : ∀ r ∈ rows, M (addrOf r.addr) = accountLayout r.account)
    (hn : ∀ a, (∀ r ∈ rows, addrOf r.addr ≠ a) → M a = []) : Covers (Tree.Spec.leafAt M) 40 [] (rows.map Row.leaf) where
  len := by
    intro e he
    obtain ⟨r, _, rfl⟩ := List.mem_map.mp he
    exact numerals_length ..
  small := by
    intro e he
    obtain ⟨r, _, rfl⟩ := List.mem_map.mp he
    exact numerals_small _ _ _ (by decide)
  nodup := by
    rw [List.map_map]
    have key : ∀ l : List Row, (∀ r ∈ l, r.addr < 256 ^ 20) → (l.map Row.addr).Nodup →
        (l.map ((fun e : Entry => e.1) ∘ Row.leaf)).Nodup := by
      intro l
      induction l with
      | nil => simp
      | cons r l ih =>
        intro h1 h2
        simp only [List.map_cons, List.nodup_cons] at h2 ⊢
        refine ⟨fun hm => h2.1 ?_, ih (fun x hx => h1 x (by simp [hx])) h2.2⟩
        obtain ⟨x, hx, he⟩ := List.mem_map.mp hm
        have e1 : Tree.keyNibs (addrOf x.addr) = Tree.keyNibs (addrOf r.addr) := by
          rw [addr_numerals, addr_numerals]
          exact congrArg (List.map F) he
        have e2 := congrArg Subtype.val (Tree.keyNibs_inj e1)
        have e3 : x.addr = r.addr := digits_inj (h1 x (by simp [hx])) (h1 r (by simp)) e2
        exact e3 ▸ List.mem_map_of_mem hx
    exact key rows ha hd
  val := by
    intro e he
    obtain ⟨r, hr, rfl⟩ := List.mem_map.mp he
    refine ⟨?_, by cases r <;> simp [Row.leaf, Row.value]⟩
    have e1 : List.map F [] ++ List.map F r.leaf.1 = Tree.keyNibs (addrOf r.addr) := (addr_numerals _).symm
    rw [e1, Tree.leafAt_nibs, hv r hr]
    exact value_eq (hf r hr)
  none := by
    intro q hq hne
    obtain ⟨a, rfl⟩ := Tree.keyNibs_surj hq
    show Tree.Spec.leafAt M (Tree.keyNibs a) = []
    rw [Tree.leafAt_nibs]
    apply hn
    rintro r hr rfl
    exact hne _ (List.mem_map_of_mem hr) (addr_numerals _).symm

/-- The root of a genesis tree. -/
theorem rows_root {M : Tree.Spec.Mapping} {rows : List Row} (hf : ∀ r ∈ rows, fit r.parts = true)
    (hd : (rows.map Row.addr).Nodup) (ha : ∀ r ∈ rows, r.addr < 256 ^ 20)
    (hv : ∀ r ∈ rows, M (addrOf r.addr) = accountLayout r.account)
    (hn : ∀ a, (∀ r ∈ rows, addrOf r.addr ≠ a) → M a = []) :
    Tree.Spec.rootHash Blake.hash M = toHash (Blake.fastSum (rootMsg (rows.map Row.leaf))) :=
  root_eq (covers hf hd ha hv hn)

end Nimiq.Genesis
