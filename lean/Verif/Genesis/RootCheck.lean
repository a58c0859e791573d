import Verif.Genesis.RootEntries
/-!
# Checking the root of a genesis tree piece by piece
-/
namespace Nimiq.Genesis
open Beserial.Spec Tree.Fast Blake

def beqList : List Nat → List Nat → Bool
  | [], [] => true
  | a :: l, b :: l' => Nat.beq a b && beqList l l'
  | _, _ => false

theorem beqList_eq : ∀ {l l' : List Nat}, beqList l l' = true → l = l'
  | [], [], _ => rfl
  | a :: l, b :: l', h => by
    simp only [beqList, Bool.and_eq_true] at h
    rw [Nat.eq_of_beq_eq_true h.1, beqList_eq h.2]
  | [], _ :: _, h => by simp [beqList] at h
  | _ :: _, [], h => by simp [beqList] at h

/-- The rest of the path and the hash of a node. -/
def subEntry (s : List Nat × Nat) : Entry := (s.1, numerals 256 32 s.2)

/-- The node below the nibble `i` is as claimed. -/
def checkSub (i : Nat) (rows : List Row) (s : List Nat × Nat) : Bool :=
  match build 39 [i] (bucket i (rows.map Row.leaf)) with
  | none => false
  | some r => beqList r.1 s.1 && beqList r.2 (numerals 256 32 s.2)

theorem checkSub_eq {i : Nat} {rows : List Row} {s : List Nat × Nat} (h : checkSub i rows s = true) :
    build 39 [i] (bucket i (rows.map Row.leaf)) = some (subEntry s) := by
  unfold checkSub at h
  cases hb : build 39 [i] (bucket i (rows.map Row.leaf)) with
  | none => rw [hb] at h; cases h
  | some r =>
    rw [hb] at h
    simp only [Bool.and_eq_true] at h
    rw [subEntry, ← beqList_eq h.1, ← beqList_eq h.2]

/-- The root above the claimed nodes is as claimed. -/
def checkRoot (subs : List (List Nat × Nat)) (h : Nat) : Bool :=
  beqList (fastSum (branchMsg [] (kidsOf (fun i => (subs[i]?).map subEntry) nibbleList))) (numerals 256 32 h)

theorem toHash_numerals (h : Nat) : toHash (numerals 256 32 h) = hashOf h := by
  rw [toHash, dif_pos (numerals_length ..)]
  apply Subtype.ext
  show (numerals 256 32 h).map UInt8.ofNat = digits 32 h
  rw [← digits_numerals, List.map_map]
  conv => rhs; rw [← List.map_id (digits 32 h)]
  apply List.map_congr_left
  intro b _
  simp

theorem root_of {rows : List Row} {subs : List (List Nat × Nat)} {h : Nat} (hl : subs.length = 16)
    (hs : ∀ i (hi : i < subs.length), checkSub i rows (subs[i]'hi) = true) (hr : checkRoot subs h = true) :
    toHash (fastSum (rootMsg (rows.map Row.leaf))) = hashOf h := by
  rw [← toHash_numerals, ← beqList_eq hr]
  unfold rootMsg
  congr 3
  rw [kidsOf_eq, kidsOf_eq]
  apply List.filterMap_congr
  intro i hi
  have hi' : i < subs.length := hl ▸ mem_nibbleList.mp hi
  rw [checkSub_eq (hs i hi'), List.getElem?_eq_getElem hi']
  rfl

end Nimiq.Genesis
