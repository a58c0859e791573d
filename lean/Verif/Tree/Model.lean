import Verif.Tree.Nibbles
/-!
# Model of `tree/node.go`, `tree/store_mem.go`, `tree/store_overlay.go` and `tree/tree.go`

Nodes are heap objects: a store maps paths to *pointers*, and branches are mutated through pointers, exactly as in Go.
A panic (failed type assertion, nil node, index or slice bounds) is `none`.  The recursive functions take a fuel
argument; running out of fuel is `none` as well, so a theorem that says "the result is `some`" excludes both a panic and
non-termination.

Simplifications: nibbles are `Fin 16` (all paths come from `KeyToNibbles`, see `keyNibs` and `C08_nibbles`); slices are
immutable lists (that the in-place `append`s of tree.go cannot be observed is proved with `SliceModel.lean`, see C93).
-/
namespace Nimiq.Tree

abbrev Nib := Fin 16
/-- store.go:12 `Nibbles` -/
abbrev Nibbles := List Nib

/-- A nibble of the byte level functions as an element of `Fin 16`. -/
def toNib (b : UInt8) : Nib := ⟨b.toNat % 16, Nat.mod_lt _ (by decide)⟩

/-- store.go:17-24 `KeyToNibbles` on a 20 byte key -/
def keyNibs (key : Addr) : Nibbles := (keyToNibbles key.val).map toNib

/-- store.go:51-57 `HexBytes`; `hexTable[nb]` is always in range. -/
def hexOf (n : Nibbles) : Bytes := n.map fun d => hexTable.getD d.val 0

/-- node.go:59-63 `Child` -/
structure Child where
  suffix : Nibbles
  hash : Hash32
  exist : Bool
  deriving DecidableEq

/-- The zero value of `Child`. -/
def Child.zero : Child := ⟨[], BArr.zero 32, false⟩

/-- tree.go:23 `zeroHash` -/
def zeroHash : Hash32 := BArr.zero 32

/-- node.go:15-18 `Branch`, node.go:66-69 `Leaf`: the objects behind the `Node` interface. -/
inductive NodeObj where
  | leaf (pfx : Nibbles) (value : Bytes)
  | branch (pfx : Nibbles) (children : Nib → Child)

/-- node.go:30-32, node.go:72-74 `GetPrefix` -/
def NodeObj.pfx : NodeObj → Nibbles
  | .leaf p _ => p
  | .branch p _ => p

/-- Assignment to an array element. -/
def setChild (ch : Nib → Child) (i : Nib) (c : Child) : Nib → Child := fun j => if j = i then c else ch j

/-- The existing children, in index order (the loops node.go:40-44, 46-53 and tree.go:166-170). -/
def existing (ch : Nib → Child) : List Child := ((List.finRange 16).map ch).filter (·.exist)

/-- node.go:76-80 `Leaf.MarshalTo` -/
def leafBytes (pfx : Nibbles) (value : Bytes) : Bytes := [0xFF, 40] ++ hexOf pfx ++ value

/-- node.go:36-53: what `Branch.Hash` writes to the hasher -/
def branchBytes (pfx : Nibbles) (ch : Nib → Child) : Bytes :=
  [0x00, UInt8.ofNat pfx.length] ++ hexOf pfx ++ [UInt8.ofNat (existing ch).length] ++
    ((existing ch).map fun c => [UInt8.ofNat c.suffix.length] ++ hexOf c.suffix ++ c.hash.val).flatten

/-- node.go:35-56 and node.go:83-88 `Hash`, for a hash function `H` -/
def objHash (H : Bytes → Hash32) : NodeObj → Hash32
  | .leaf p v => H (leafBytes p v)
  | .branch p ch => H (branchBytes p ch)

/-! ## Stores -/

/-- A pointer to a node object. -/
abbrev Ptr := Nat

/-- A Go `map[string]V`: an association list without duplicate keys (see `mput`). Only lookups and the set of entries are
observable; iteration order is a parameter where the code iterates (`flushLoop`). -/
abbrev GoMap (V : Type) := List (Nibbles × V)

/-- Map lookup. -/
def mget {V : Type} (m : GoMap V) (k : Nibbles) : Option V := (m.find? fun e => e.1 = k).map (·.2)
/-- `delete(m, k)` -/
def mdel {V : Type} (m : GoMap V) (k : Nibbles) : GoMap V := m.filter fun e => e.1 ≠ k
/-- `m[k] = v` -/
def mput {V : Type} (m : GoMap V) (k : Nibbles) (v : V) : GoMap V := (k, v) :: mdel m k

/-- store_mem.go:4-6 `MemStore`, store_overlay.go:4-7 `OverlayStore`; `diffs = none` is a nil map, a nil entry of
`diffs` is a deletion. -/
inductive Store where
  | mem (nodes : GoMap Ptr)
  | overlay (lower : Store) (diffs : Option (GoMap (Option Ptr)))

/-- store_mem.go:18-20, store_overlay.go:10-18 `GetNode` (reading a nil map finds nothing) -/
def Store.get : Store → Nibbles → Option Ptr
  | .mem nodes, k => mget nodes k
  | .overlay lower diffs, k =>
    match diffs.bind (mget · k) with
    | some ov => ov
    | none => lower.get k

/-- store_mem.go:23-25, store_overlay.go:21-23 `PutNode`; writing to a nil map panics -/
def Store.put : Store → Nibbles → Ptr → Option Store
  | .mem nodes, k, p => some (.mem (mput nodes k p))
  | .overlay _ none, _, _ => none
  | .overlay lower (some d), k, p => some (.overlay lower (some (mput d k (some p))))

/-- store_mem.go:28-30, store_overlay.go:26-28 `DelNode` -/
def Store.del : Store → Nibbles → Option Store
  | .mem nodes, k => some (.mem (mdel nodes k))
  | .overlay _ none, _ => none
  | .overlay lower (some d), k => some (.overlay lower (some (mput d k none)))

/-- store_overlay.go:32-40: the loop of `Flush` visiting the entries in the given order -/
def flushLoop : List (Nibbles × Option Ptr) → Store → GoMap (Option Ptr) → Option (Store × GoMap (Option Ptr))
  | [], lower, d => some (lower, d)
  | (k, none) :: rest, lower, d => do
    let lower ← lower.del k
    flushLoop rest lower (mdel d k)
  | (k, some p) :: rest, lower, d => do
    let lower ← lower.put k p
    flushLoop rest lower (mdel d k)

/-- store_overlay.go:31-41 `Flush`, with the (unspecified) iteration order of the Go map as an argument. -/
def Store.flush (order : List (Nibbles × Option Ptr)) : Store → Option Store
  | .mem _ => none
  | .overlay lower none => some (.overlay lower none)
  | .overlay lower (some d) => do
    let (lower, d) ← flushLoop order lower d
    return .overlay lower (some d)

/-! ## The heap and the tree -/

/-- All node objects ever allocated, the allocation counter, and the `Store` field of the `PMTree`. -/
structure World where
  heap : Ptr → NodeObj
  next : Ptr
  store : Store

/-- Computations of tree.go: they may panic (`none`). -/
def TM (α : Type) := World → Option (α × World)

namespace TM
def pure {α} (a : α) : TM α := fun w => some (a, w)
def bind {α β} (m : TM α) (f : α → TM β) : TM β := fun w =>
  match m w with
  | none => none
  | some (a, w) => f a w
instance : Monad TM where
  pure := TM.pure
  bind := TM.bind
/-- A Go panic. -/
def panic {α} : TM α := fun _ => none
end TM

/-- `&Leaf{...}`, `&Branch{...}` -/
def alloc (o : NodeObj) : TM Ptr := fun w =>
  some (w.next, { w with heap := fun p => if p = w.next then o else w.heap p, next := w.next + 1 })
/-- Reading through a pointer. -/
def deref (p : Ptr) : TM NodeObj := fun w => some (w.heap p, w)
/-- Writing through a pointer. -/
def write (p : Ptr) (o : NodeObj) : TM Unit := fun w =>
  some ((), { w with heap := fun q => if q = p then o else w.heap q })
/-- `t.Store.GetNode(k)` -/
def getNode (k : Nibbles) : TM (Option Ptr) := fun w => some (w.store.get k, w)
/-- `t.Store.PutNode(k, p)` -/
def putNode (k : Nibbles) (p : Ptr) : TM Unit := fun w => (w.store.put k p).map fun s => ((), { w with store := s })
/-- `t.Store.DelNode(k)` -/
def delNode (k : Nibbles) : TM Unit := fun w => (w.store.del k).map fun s => ((), { w with store := s })

/-- The type assertion `x.(*Branch)` on a non-nil node. -/
def asBranch (p : Ptr) : TM (Nibbles × (Nib → Child)) := do
  match ← deref p with
  | .branch pfx ch => return (pfx, ch)
  | .leaf _ _ => TM.panic

/-- node.go:21-27 `PutChild` on the branch `pfx, ch`: `suffix[0]` panics for an empty suffix. -/
def withChild (ch : Nib → Child) (suffix : Nibbles) (h : Hash32) : TM (Nib → Child) :=
  match suffix with
  | [] => TM.panic
  | i :: s => return setChild ch i ⟨i :: s, h, true⟩

/-- `l[n:]`, which panics when `n > len(l)` -/
def sliceFrom (l : Nibbles) (n : Nat) : TM Nibbles :=
  if n ≤ l.length then return l.drop n else TM.panic

/-- tree.go:141-152 `invalidatePath`. The path is a stack of pointers whose head is the Go slice's last element. -/
def invalidatePath : Nibbles → List Ptr → TM Unit
  | _, [] => return ()
  | current, p :: path => do
    let (pfx, ch) ← asBranch p
    let suffix ← sliceFrom current pfx.length
    let ch' ← withChild ch suffix zeroHash
    write p (.branch pfx ch')
    invalidatePath pfx path

/-- tree.go:156-188 `prune` -/
def prune : Nibbles → List Ptr → TM Unit
  | _, [] => return ()
  | current, p :: path => do
    let (pfx, ch) ← asBranch p
    match current.drop pfx.length with
    | [] => TM.panic
    | i :: _ =>
      -- tree.go:163 node.Children[i].Exists = false
      let ch' := setChild ch i { ch i with exist := false }
      write p (.branch pfx ch')
      match existing ch' with
      | [c] =>
        if pfx.length > 0 then
          -- tree.go:171-179
          delNode pfx
          invalidatePath (pfx ++ c.suffix) path
        else
          putNode pfx p
          invalidatePath pfx path
      | [] =>
        if pfx.length = 0 then
          putNode pfx p
          invalidatePath pfx path
        else
          prune pfx path
      | _ =>
        -- tree.go:180-184
        putNode pfx p
        invalidatePath pfx path

/-- tree.go:81-137 `update` -/
def update : Nat → Nibbles → Nibbles → Bytes → List Ptr → TM Unit
  | 0, _, _, _, _ => TM.panic
  | fuel + 1, nodePrefix, pfx, value, rootPath => do
    if ¬ prefixOf nodePrefix pfx then
      -- tree.go:82-97
      let leaf ← alloc (.leaf pfx value)
      putNode pfx leaf
      let parPfx := commonPrefix nodePrefix pfx
      let s1 ← sliceFrom nodePrefix parPfx.length
      let ch1 ← withChild (fun _ => Child.zero) s1 zeroHash
      let s2 ← sliceFrom pfx parPfx.length
      let ch2 ← withChild ch1 s2 zeroHash
      let par ← alloc (.branch parPfx ch2)
      putNode parPfx par
      invalidatePath parPfx rootPath
    else if nodePrefix = pfx then
      -- tree.go:99-113
      if value.length = 0 then
        delNode nodePrefix
        prune nodePrefix rootPath
      else
        let leaf ← alloc (.leaf nodePrefix value)
        putNode nodePrefix leaf
        invalidatePath nodePrefix rootPath
    else
      -- tree.go:115-136
      match ← getNode nodePrefix with
      | none => TM.panic
      | some node =>
        let (npfx, ch) ← asBranch node
        match pfx.drop npfx.length with
        | [] => TM.panic
        | i :: _ =>
          if (ch i).exist then
            update fuel (npfx ++ (ch i).suffix) pfx value (node :: rootPath)
          else
            let leaf ← alloc (.leaf pfx value)
            putNode pfx leaf
            let (npfx, ch) ← asBranch node
            let s ← sliceFrom pfx npfx.length
            let ch' ← withChild ch s zeroHash
            write node (.branch npfx ch')
            putNode npfx node
            invalidatePath nodePrefix rootPath

/-- tree.go:197-204: the loop of `updateHashes` over the child indices `is`; `rec` is the recursive call. The branch is
re-read through its pointer in every iteration. -/
def hashLoop (rec : Nibbles → TM Hash32) (pfx : Nibbles) (p : Ptr) : List Nib → TM Unit
  | [] => return ()
  | i :: is => do
    let (_, ch) ← asBranch p
    if (ch i).exist ∧ (ch i).hash = zeroHash then
      let h ← rec (pfx ++ (ch i).suffix)
      let (npfx, ch) ← asBranch p
      write p (.branch npfx (setChild ch i { ch i with hash := h }))
      hashLoop rec pfx p is
    else
      hashLoop rec pfx p is

/-- tree.go:191-210 `updateHashes` -/
def updateHashes (H : Bytes → Hash32) : Nat → Nibbles → TM Hash32
  | 0, _ => TM.panic
  | fuel + 1, pfx => do
    match ← getNode pfx with
    | none => TM.panic
    | some p =>
      match ← deref p with
      | .leaf lp v => return objHash H (.leaf lp v)
      | .branch _ _ =>
        hashLoop (updateHashes H fuel) pfx p (List.finRange 16)
        let (npfx, ch) ← asBranch p
        putNode npfx p
        return objHash H (.branch npfx ch)

/-- Recursion depth that is always enough: paths have at most 40 nibbles and grow with every recursive call. -/
def maxDepth : Nat := 64

/-- tree.go:48-64 `updateEntry` -/
def updateEntry (key : Addr) (value : Bytes) : TM Bool := do
  let pfx := keyNibs key
  let node ← getNode pfx
  match node with
  | none =>
    if value.length = 0 then return false
    update maxDepth [] pfx value []
    return true
  | some p =>
    match ← deref p with
    | .leaf _ v =>
      if v = value then return false
      update maxDepth [] pfx value []
      return true
    | .branch _ _ =>
      update maxDepth [] pfx value []
      return true

/-- tree.go:42-46 `PutEntry` -/
def putEntry (H : Bytes → Hash32) (key : Addr) (value : Bytes) : TM Bool := do
  let changed ← updateEntry key value
  let _ ← updateHashes H maxDepth []
  return changed

/-- tree.go:25-35 `GetEntry`: `none` is a nil slice -/
def getEntry (key : Addr) : TM (Option Bytes) := do
  match ← getNode (keyNibs key) with
  | none => return none
  | some p =>
    match ← deref p with
    | .leaf _ v => return some v
    | .branch _ _ => TM.panic

/-- tree.go:67-69 `Hash` -/
def hash (H : Bytes → Hash32) : TM Hash32 := do
  match ← getNode [] with
  | none => TM.panic
  | some p =>
    let (pfx, ch) ← asBranch p
    return objHash H (.branch pfx ch)

/-- store_mem.go:9-15 `NewMemStore`, with the rest of the heap unused. -/
def newWorld : World :=
  { heap := fun _ => .branch [] (fun _ => Child.zero), next := 1, store := .mem [([], 0)] }

end Nimiq.Tree
