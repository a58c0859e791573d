import Verif.Genesis.Spec
import Verif.Wire.Sign
import Verif.Wire.BlockLayout
/-!
# Byte strings written as one number

The embedded genesis files are given as the number their bytes are the base 256 digits of.  To take such a number apart, the
kernel only has to compare numbers.
-/
namespace Nimiq.Genesis
open Beserial Wire Accounts Beserial.Spec

/-- Numbers of given widths, written one after the other. -/
def spread (l : List (Nat × Nat)) : Bytes := (l.map fun p => digits p.1 p.2).flatten

/-- Appends numbers of given widths to a number. -/
def glue : Nat → List (Nat × Nat) → Nat
  | acc, [] => acc
  | acc, (k, x) :: l => glue (acc * 256 ^ k + x) l

def width : List (Nat × Nat) → Nat → Nat
  | [], acc => acc
  | (k, _) :: l, acc => width l (acc + k)

/-- Every number fits its width. -/
def fit : List (Nat × Nat) → Bool
  | [] => true
  | (k, x) :: l => Nat.ble (x + 1) (256 ^ k) && fit l

theorem digits_append (a b x y : Nat) (hy : y < 256 ^ b) : digits (a + b) (x * 256 ^ b + y) = digits a x ++ digits b y := by
  apply List.ext_getElem
  · simp [digits]
  · intro i h1 h2
    simp only [digits, List.length_map, List.length_range] at h1
    by_cases hi : i < a
    · rw [List.getElem_append_left (by simpa [digits] using hi)]
      simp only [digits, List.getElem_map, List.getElem_range]
      have e : a + b - 1 - i = b + (a - 1 - i) := by omega
      rw [e, Nat.pow_add, ← Nat.div_div_eq_div_mul, Nat.add_comm, Nat.add_mul_div_right _ _ (Nat.pow_pos (by decide)),
        Nat.div_eq_of_lt hy, Nat.zero_add]
    · rw [List.getElem_append_right (by simpa [digits] using hi)]
      simp only [digits, List.getElem_map, List.getElem_range, List.length_map, List.length_range]
      have e : a + b - 1 - i = b - 1 - (i - a) := by omega
      rw [e]
      have e2 : b = (i - a + 1) + (b - 1 - (i - a)) := by omega
      generalize b - 1 - (i - a) = c at *
      have h3 : x * 256 ^ b = x * 256 ^ (i - a) * 256 * 256 ^ c := by
        rw [e2, Nat.pow_add, Nat.pow_add]; ring_nf
      rw [h3, Nat.add_comm, Nat.add_mul_div_right _ _ (Nat.pow_pos (by decide))]
      apply UInt8.toNat_inj.mp
      simp [Nat.add_mul_mod_self_right]

theorem width_eq (l : List (Nat × Nat)) (acc : Nat) : width l acc = acc + width l 0 := by
  induction l generalizing acc with
  | nil => simp [width]
  | cons p l ih =>
    obtain ⟨k, x⟩ := p
    simp only [width]
    rw [ih, ih (0 + k)]; omega

theorem digits_glue (l : List (Nat × Nat)) (n acc : Nat) (h : fit l = true) :
    digits (width l n) (glue acc l) = digits n acc ++ spread l := by
  induction l generalizing n acc with
  | nil => simp [width, glue, spread]
  | cons p l ih =>
    obtain ⟨k, x⟩ := p
    simp only [fit, Bool.and_eq_true, Nat.ble_eq] at h
    simp only [width, glue]
    rw [ih _ _ h.2, digits_append _ _ _ _ (by omega)]
    simp [spread]

/-- How a number is taken apart. -/
theorem digits_spread {l : List (Nat × Nat)} {n x : Nat} (h1 : fit l = true) (h2 : Nat.beq (width l 0) n = true)
    (h3 : Nat.beq (glue 0 l) x = true) : digits n x = spread l := by
  rw [← Nat.eq_of_beq_eq_true h2, ← Nat.eq_of_beq_eq_true h3, digits_glue _ _ _ h1]
  simp [digits]

theorem spread_append (l l' : List (Nat × Nat)) : spread (l ++ l') = spread l ++ spread l' := by simp [spread]

/-! ## Account files -/

/-- An entry of an account file, as numbers. -/
inductive Row
  | b (addr balance : Nat)
  | v (addr balance owner start stepBlocks stepAmount amount : Nat)

def Row.addr : Row → Nat
  | .b a _ => a
  | .v a _ _ _ _ _ _ => a

def Row.balance : Row → Nat
  | .b _ x => x
  | .v _ x _ _ _ _ _ => x

def Row.parts : Row → List (Nat × Nat)
  | .b a x => [(20, a), (1, 0), (8, x)]
  | .v a x o s sb sa t => [(20, a), (1, 1), (8, x), (20, o), (4, s), (4, sb), (8, sa), (8, t)]

def addrOf (n : Nat) : Addr := ⟨digits 20 n, digits_length 20 n⟩

def Row.account : Row → Account
  | .b _ x => .basic ⟨.ofNat x⟩
  | .v _ x o s sb sa t => .vesting ⟨.ofNat x, addrOf o, .ofNat s, .ofNat sb, .ofNat sa, .ofNat t⟩

def Row.entry (r : Row) : Addr × Account := (addrOf r.addr, r.account)

/-- The parts of a list of rows. -/
def partsOf : List Row → List (Nat × Nat)
  | [] => []
  | r :: l => r.parts ++ partsOf l

def sumOf : List Row → Nat → Nat
  | [], acc => acc
  | r :: l, acc => sumOf l (acc + r.balance)

theorem fit_append {l l' : List (Nat × Nat)} (h : fit (l ++ l') = true) : fit l = true ∧ fit l' = true := by
  induction l with
  | nil => exact ⟨rfl, h⟩
  | cons p l ih =>
    simp only [List.cons_append, fit, Bool.and_eq_true] at h ⊢
    exact ⟨⟨h.1, (ih h.2).1⟩, (ih h.2).2⟩

theorem row_layout {r : Row} (h : fit r.parts = true) : spread r.parts = r.entry.1.val ++ accountLayout r.entry.2 := by
  cases r with
  | b a x =>
    simp only [Row.parts, fit, Bool.and_eq_true, Nat.ble_eq] at h
    have hx : (UInt64.ofNat x).toNat = x := by rw [UInt64.toNat_ofNat']; exact Nat.mod_eq_of_lt (by omega)
    simp only [spread, Row.parts, List.map_cons, List.map_nil, List.flatten_cons, List.flatten_nil, Row.entry, Row.account,
      accountLayout, hx, List.append_nil]
    rfl
  | v a x o s sb sa t =>
    simp only [Row.parts, fit, Bool.and_eq_true, Nat.ble_eq] at h
    have hx : (UInt64.ofNat x).toNat = x := by rw [UInt64.toNat_ofNat']; exact Nat.mod_eq_of_lt (by omega)
    have hsa : (UInt64.ofNat sa).toNat = sa := by rw [UInt64.toNat_ofNat']; exact Nat.mod_eq_of_lt (by omega)
    have ht : (UInt64.ofNat t).toNat = t := by rw [UInt64.toNat_ofNat']; exact Nat.mod_eq_of_lt (by omega)
    have hs : (UInt32.ofNat s).toNat = s := by rw [UInt32.toNat_ofNat']; exact Nat.mod_eq_of_lt (by omega)
    have hsb : (UInt32.ofNat sb).toNat = sb := by rw [UInt32.toNat_ofNat']; exact Nat.mod_eq_of_lt (by omega)
    simp only [spread, Row.parts, List.map_cons, List.map_nil, List.flatten_cons, List.flatten_nil, Row.entry, Row.account,
      accountLayout, hx, hsa, ht, hs, hsb, List.append_nil, List.append_assoc]
    rfl

theorem rows_layout (l : List Row) (h : fit (partsOf l) = true) :
    spread (partsOf l) = ((l.map Row.entry).map fun e => e.1.val ++ accountLayout e.2).flatten := by
  induction l with
  | nil => rfl
  | cons r l ih =>
    have := fit_append h
    simp only [partsOf, spread_append, List.map_cons, List.flatten_cons, row_layout this.1, ih this.2]

theorem sumOf_eq (l : List Row) (acc : Nat) : sumOf l acc = acc + (l.map Row.balance).sum := by
  induction l generalizing acc with
  | nil => simp [sumOf]
  | cons r l ih => simp only [sumOf, ih, List.map_cons, List.sum_cons]; omega

/-- What is checked of a piece of an account file. -/
def checkPiece (rows : List Row) (n x sum : Nat) : Bool :=
  fit (partsOf rows) && (Nat.beq (width (partsOf rows) 0) n && (Nat.beq (glue 0 (partsOf rows)) x && Nat.beq (sumOf rows 0) sum))

theorem piece {rows : List Row} {n x sum : Nat} (h : checkPiece rows n x sum = true) :
    digits n x = ((rows.map Row.entry).map fun e => e.1.val ++ accountLayout e.2).flatten ∧
      (rows.map Row.balance).sum = sum ∧ fit (partsOf rows) = true := by
  simp only [checkPiece, Bool.and_eq_true] at h
  obtain ⟨h1, h2, h3, h4⟩ := h
  refine ⟨by rw [digits_spread h1 h2 h3, rows_layout _ h1], ?_, h1⟩
  rw [← Nat.eq_of_beq_eq_true h4, sumOf_eq]; omega

/-- No number occurs twice. -/
def distinct : List Nat → Bool
  | [] => true
  | a :: l => absent a l && distinct l
where
  absent (a : Nat) : List Nat → Bool
    | [] => true
    | b :: l => bif Nat.beq a b then false else absent a l

theorem absent_iff (a : Nat) (l : List Nat) : distinct.absent a l = true ↔ a ∉ l := by
  induction l with
  | nil => simp [distinct.absent]
  | cons b l ih =>
    simp only [distinct.absent]
    by_cases h : a = b
    · subst h
      have : Nat.beq a a = true := Nat.beq_refl a
      simp [this]
    · have : Nat.beq a b = false := by
        cases hb : Nat.beq a b with
        | false => rfl
        | true => exact absurd (Nat.eq_of_beq_eq_true hb) h
      simp [this, ih, h]

theorem distinct_iff (l : List Nat) : distinct l = true ↔ l.Nodup := by
  induction l with
  | nil => simp [distinct]
  | cons a l ih => simp [distinct, ih, absent_iff]

/-! ## Genesis blocks -/

def hashOf (n : Nat) : Hash32 := ⟨digits 32 n, digits_length 32 n⟩

/-- A block of height 1 without predecessors, mined by the zero address, without transactions and pruned accounts. -/
def blockParts (body accounts nBits timestamp nonce k extra : Nat) : List (Nat × Nat) :=
  [(2, 1), (32, 0), (32, 0), (32, body), (32, accounts), (4, nBits), (4, 1), (4, timestamp), (4, nonce), (1, 0), (1, 1),
    (20, 0), (1, k), (k, extra), (2, 0), (2, 0)]

theorem open_block {body accounts nBits timestamp nonce k extra : Nat}
    (h : fit (blockParts body accounts nBits timestamp nonce k extra) = true) :
    ∃ v, UnmarshalFull blockTy blockTy.zero (spread (blockParts body accounts nBits timestamp nonce k extra)) = .ok v ∧
      Block.ofVal v = some ⟨1, hashOf accounts, some ⟨addrOf 0, [], []⟩⟩ := by
  simp only [blockParts, fit, Bool.and_eq_true, Nat.ble_eq] at h
  let hf : HeaderFields := ⟨1, hashOf 0, hashOf 0, hashOf body, hashOf accounts, .ofNat nBits, 1, .ofNat timestamp, .ofNat nonce⟩
  let bf : BodyFields := ⟨addrOf 0, digits k extra, [], []⟩
  let r : BitSet := ⟨0, []⟩
  have hnb : (UInt32.ofNat nBits).toNat = nBits := by rw [UInt32.toNat_ofNat']; exact Nat.mod_eq_of_lt (by omega)
  have hts : (UInt32.ofNat timestamp).toNat = timestamp := by rw [UInt32.toNat_ofNat']; exact Nat.mod_eq_of_lt (by omega)
  have hno : (UInt32.ofNat nonce).toNat = nonce := by rw [UInt32.toNat_ofNat']; exact Nat.mod_eq_of_lt (by omega)
  have hd : spread (blockParts body accounts nBits timestamp nonce k extra) =
      headerLayout hf ++ ([r.len] ++ r.bits ++ [] ++ (optBodyLayout (some bf) ++ [])) := by
    have e1 : digits 1 0 = [0] := rfl
    have e2 : digits 1 1 = [1] := rfl
    simp only [spread, blockParts, headerLayout, optBodyLayout, bodyLayout, hf, bf, r, List.map_cons, List.map_nil,
      List.flatten_cons, List.flatten_nil, List.append_nil, List.append_assoc, hnb, hts, hno, digits_length, List.length_nil,
      List.nil_append, List.cons_append, e1, e2]
    rfl
  have hfit : bodyFits bf := by
    refine ⟨?_, by simp [bf], by simp [bf], by simp [bf]⟩
    simp only [bf, digits_length]; omega
  have h1 := (header_layout_iff blockTy.zero.1 hf.hdr _ ([r.len] ++ r.bits ++ [] ++ (optBodyLayout (some bf) ++ []))).mpr
    ⟨hf, rfl, hd⟩
  have h2 := (interlink_layout_iff blockTy.zero.2.1 _ ([r.len] ++ r.bits ++ [] ++ (optBodyLayout (some bf) ++ []))
    (optBodyLayout (some bf) ++ [])).mpr ⟨r, [], by decide, by decide, by decide, rfl, rfl⟩
  have h3 := (optBody_iff blockTy.zero.2.2.1 _ (optBodyLayout (some bf) ++ []) []).mpr
    ⟨some bf, fun b hb => by cases hb; exact hfit, rfl, rfl⟩
  have h4 := (block_parts_iff blockTy.zero.1 blockTy.zero.2.1 blockTy.zero.2.2.1 _ _ []).mpr ⟨_, _, _, _, _, h1, h2, h3, rfl⟩
  refine ⟨_, (C37_full_iff _ _ _ _).mpr ⟨[], h4, ?_⟩, rfl⟩
  have h5 : Unmarshal blockTy blockTy.zero (spread (blockParts body accounts nBits timestamp nonce k extra)) = _ := h4
  rw [h5]
  simp [bytesRead]

end Nimiq.Genesis
