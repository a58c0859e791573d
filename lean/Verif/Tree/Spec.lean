import Verif.Basic
/-!
# Specification for the tree: the Merkle-Patricia hash of a finite map

Independent of the model: a map `M` from 20 byte keys to values (the empty value means "no entry") has a canonical
path-compressed 16-ary tree; `rootHash` computes its hash by plain recursion over the depth.
-/
namespace Nimiq.Tree.Spec

/-- Contents of a tree: every key has a value, the empty value means that the key is absent. -/
abbrev Mapping := Addr → Bytes

/-- `M` with the value of one key replaced. -/
def set (M : Mapping) (a : Addr) (v : Bytes) : Mapping := fun b => if b = a then v else M b

/-- What a list of puts, applied from left to right to the empty mapping, leaves. -/
def final (puts : List (Addr × Bytes)) : Mapping :=
  fun a => ((puts.filter fun e => e.1 = a).getLast?.map (·.2)).getD []

/-- The digit character of a nibble. -/
def digit (n : Fin 16) : UInt8 := UInt8.ofNat (if n.val < 10 then 0x30 + n.val else 0x57 + n.val)

/-- The two nibbles of each byte, high one first. -/
def nibbles (a : Addr) : List (Fin 16) :=
  a.val.flatMap fun b => [Fin.ofNat 16 (b.toNat / 16), Fin.ofNat 16 (b.toNat % 16)]

/-- Leaf encoding. -/
def leafEnc (path : List (Fin 16)) (value : Bytes) : Bytes := 0xFF :: 40 :: (path.map digit ++ value)

/-- Branch encoding: path, number of children, and for each child its path suffix and its hash. -/
def branchEnc (path : List (Fin 16)) (kids : List (List (Fin 16) × Hash32)) : Bytes :=
  0x00 :: UInt8.ofNat path.length :: (path.map digit ++ UInt8.ofNat kids.length ::
    kids.flatMap fun k => UInt8.ofNat k.1.length :: (k.1.map digit ++ k.2.val))

/-- Non-empty subtrees below `path` in nibble order, given the results `sub` one level deeper. -/
def kids (sub : Fin 16 → Option (List (Fin 16) × Hash32)) : List (List (Fin 16) × Hash32) :=
  (List.finRange 16).filterMap fun i => (sub i).map fun r => (i :: r.1, r.2)

/-- The topmost node at or below `path` (which has `depth` nibbles left): the rest of its path and its hash. Positions
with one child are skipped, positions with several children are branches. `L` gives the value at a complete path. -/
def top (H : Bytes → Hash32) (L : List (Fin 16) → Bytes) : Nat → List (Fin 16) → Option (List (Fin 16) × Hash32)
  | 0, path => if L path = [] then none else some ([], H (leafEnc path (L path)))
  | depth + 1, path =>
    match kids (fun i => top H L depth (path ++ [i])) with
    | [] => none
    | [k] => some k
    | ks => some ([], H (branchEnc path ks))

open Classical in
/-- The value of a complete path. -/
noncomputable def leafAt (M : Mapping) (path : List (Fin 16)) : Bytes :=
  if h : ∃ a, nibbles a = path then M h.choose else []

/-- The root is always a branch. -/
noncomputable def rootHash (H : Bytes → Hash32) (M : Mapping) : Hash32 :=
  H (branchEnc [] (kids fun i => top H (leafAt M) 39 [i]))

/-- The byte strings that are hashed to compute `top`. -/
def topStrings (H : Bytes → Hash32) (L : List (Fin 16) → Bytes) : Nat → List (Fin 16) → List Bytes
  | 0, path => if L path = [] then [] else [leafEnc path (L path)]
  | depth + 1, path =>
    let below := (List.finRange 16).flatMap fun i => topStrings H L depth (path ++ [i])
    match kids (fun i => top H L depth (path ++ [i])) with
    | [] => below
    | [_] => below
    | ks => branchEnc path ks :: below

/-- The byte strings that are hashed to compute `rootHash`. -/
noncomputable def rootStrings (H : Bytes → Hash32) (M : Mapping) : List Bytes :=
  branchEnc [] (kids fun i => top H (leafAt M) 39 [i]) ::
    (List.finRange 16).flatMap fun i => topStrings H (leafAt M) 39 [i]

end Nimiq.Tree.Spec
