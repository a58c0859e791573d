import Verif.Tree.Props
/-!
# The tree over an arbitrary implementation of interface `Store`

`Model.lean` has the tree over the two stores of the package.  `Store` (store.go:4-8) is an exported interface, and
`PMTree.Store` an exported field: here the functions of tree.go run over any implementation, given as a state machine.  The
functions are those of `Model.lean` with the three calls of the interface replaced.
-/
namespace Nimiq.Tree.Generic

/-- The node objects and the state of the store. -/
structure GWorld (σ : Type) where
  heap : Ptr → NodeObj
  next : Ptr
  st : σ

/-- Computations that may panic (`none`). -/
def GM (σ α : Type) := GWorld σ → Option (α × GWorld σ)

namespace GM
variable {σ : Type}
def pure {α} (a : α) : GM σ α := fun w => some (a, w)
def bind {α β} (m : GM σ α) (f : α → GM σ β) : GM σ β := fun w =>
  match m w with
  | none => none
  | some (a, w) => f a w
instance : Monad (GM σ) where
  pure := GM.pure
  bind := GM.bind
/-- A Go panic. -/
def panic {α} : GM σ α := fun _ => none
end GM

variable {σ : Type}

/-- `&Leaf{...}`, `&Branch{...}` -/
def alloc (o : NodeObj) : GM σ Ptr := fun w =>
  some (w.next, { w with heap := fun p => if p = w.next then o else w.heap p, next := w.next + 1 })
/-- Reading through a pointer. -/
def deref (p : Ptr) : GM σ NodeObj := fun w => some (w.heap p, w)
/-- Writing through a pointer. -/
def write (p : Ptr) (o : NodeObj) : GM σ Unit := fun w =>
  some ((), { w with heap := fun q => if q = p then o else w.heap q })

/-- store.go:4-8 `Store`: the methods may look at nodes, make new ones and panic. -/
structure Impl (σ : Type) where
  getNode : Nibbles → GM σ (Option Ptr)
  putNode : Nibbles → Ptr → GM σ Unit
  delNode : Nibbles → GM σ Unit

/-- The type assertion `x.(*Branch)` on a non-nil node. -/
def asBranch (p : Ptr) : GM σ (Nibbles × (Nib → Child)) := do
  match ← deref p with
  | .branch pfx ch => return (pfx, ch)
  | .leaf _ _ => GM.panic

/-- node.go:21-27 `PutChild` -/
def withChild (ch : Nib → Child) (suffix : Nibbles) (h : Hash32) : GM σ (Nib → Child) :=
  match suffix with
  | [] => GM.panic
  | i :: s => return setChild ch i ⟨i :: s, h, true⟩

/-- `l[n:]`, which panics when `n > len(l)` -/
def sliceFrom (l : Nibbles) (n : Nat) : GM σ Nibbles :=
  if n ≤ l.length then return l.drop n else GM.panic

/-- tree.go:141-152 `invalidatePath` -/
def invalidatePath : Nibbles → List Ptr → GM σ Unit
  | _, [] => return ()
  | current, p :: path => do
    let (pfx, ch) ← asBranch p
    let suffix ← sliceFrom current pfx.length
    let ch' ← withChild ch suffix zeroHash
    write p (.branch pfx ch')
    invalidatePath pfx path

variable (I : Impl σ)

/-- tree.go:156-188 `prune` -/
def prune : Nibbles → List Ptr → GM σ Unit
  | _, [] => return ()
  | current, p :: path => do
    let (pfx, ch) ← asBranch p
    match current.drop pfx.length with
    | [] => GM.panic
    | i :: _ =>
      let ch' := setChild ch i { ch i with exist := false }
      write p (.branch pfx ch')
      match existing ch' with
      | [c] =>
        if pfx.length > 0 then
          I.delNode pfx
          invalidatePath (pfx ++ c.suffix) path
        else
          I.putNode pfx p
          invalidatePath pfx path
      | [] =>
        if pfx.length = 0 then
          I.putNode pfx p
          invalidatePath pfx path
        else
          prune pfx path
      | _ =>
        I.putNode pfx p
        invalidatePath pfx path

/-- tree.go:81-137 `update` -/
def update : Nat → Nibbles → Nibbles → Bytes → List Ptr → GM σ Unit
  | 0, _, _, _, _ => GM.panic
  | fuel + 1, nodePrefix, pfx, value, rootPath => do
    if ¬ prefixOf nodePrefix pfx then
      let leaf ← alloc (.leaf pfx value)
      I.putNode pfx leaf
      let parPfx := commonPrefix nodePrefix pfx
      let s1 ← sliceFrom nodePrefix parPfx.length
      let ch1 ← withChild (fun _ => Child.zero) s1 zeroHash
      let s2 ← sliceFrom pfx parPfx.length
      let ch2 ← withChild ch1 s2 zeroHash
      let par ← alloc (.branch parPfx ch2)
      I.putNode parPfx par
      invalidatePath parPfx rootPath
    else if nodePrefix = pfx then
      if value.length = 0 then
        I.delNode nodePrefix
        prune I nodePrefix rootPath
      else
        let leaf ← alloc (.leaf nodePrefix value)
        I.putNode nodePrefix leaf
        invalidatePath nodePrefix rootPath
    else
      match ← I.getNode nodePrefix with
      | none => GM.panic
      | some node =>
        let (npfx, ch) ← asBranch node
        match pfx.drop npfx.length with
        | [] => GM.panic
        | i :: _ =>
          if (ch i).exist then
            update fuel (npfx ++ (ch i).suffix) pfx value (node :: rootPath)
          else
            let leaf ← alloc (.leaf pfx value)
            I.putNode pfx leaf
            let (npfx, ch) ← asBranch node
            let s ← sliceFrom pfx npfx.length
            let ch' ← withChild ch s zeroHash
            write node (.branch npfx ch')
            I.putNode npfx node
            invalidatePath nodePrefix rootPath

/-- tree.go:197-204: the loop of `updateHashes` -/
def hashLoop (rec : Nibbles → GM σ Hash32) (pfx : Nibbles) (p : Ptr) : List Nib → GM σ Unit
  | [] => return ()
  | i :: is => do
    let (_, ch) ← asBranch p
    if (ch i).exist ∧ (ch i).hash = zeroHash then
      let h ← rec (pfx ++ (ch i).suffix)
      let (npfx, ch) ← asBranch p
      write p (.branch npfx (setChild ch i { ch i with hash := h }))
      hashLoop rec pfx p is
    else
      hashLoop rec pfx p is

/-- tree.go:191-210 `updateHashes` -/
def updateHashes (H : Bytes → Hash32) : Nat → Nibbles → GM σ Hash32
  | 0, _ => GM.panic
  | fuel + 1, pfx => do
    match ← I.getNode pfx with
    | none => GM.panic
    | some p =>
      match ← deref p with
      | .leaf lp v => return objHash H (.leaf lp v)
      | .branch _ _ =>
        hashLoop (updateHashes H fuel) pfx p (List.finRange 16)
        let (npfx, ch) ← asBranch p
        I.putNode npfx p
        return objHash H (.branch npfx ch)

/-- tree.go:48-64 `updateEntry` -/
def updateEntry (key : Addr) (value : Bytes) : GM σ Bool := do
  let pfx := keyNibs key
  let node ← I.getNode pfx
  match node with
  | none =>
    if value.length = 0 then return false
    update I maxDepth [] pfx value []
    return true
  | some p =>
    match ← deref p with
    | .leaf _ v =>
      if v = value then return false
      update I maxDepth [] pfx value []
      return true
    | .branch _ _ =>
      update I maxDepth [] pfx value []
      return true

/-- tree.go:42-46 `PutEntry` -/
def putEntry (H : Bytes → Hash32) (key : Addr) (value : Bytes) : GM σ Bool := do
  let changed ← updateEntry I key value
  let _ ← updateHashes I H maxDepth []
  return changed

/-- tree.go:25-35 `GetEntry` -/
def getEntry (key : Addr) : GM σ (Option Bytes) := do
  match ← I.getNode (keyNibs key) with
  | none => return none
  | some p =>
    match ← deref p with
    | .leaf _ v => return some v
    | .branch _ _ => GM.panic

/-- tree.go:67-69 `Hash` -/
def hash (H : Bytes → Hash32) : GM σ Hash32 := do
  match ← I.getNode [] with
  | none => GM.panic
  | some p =>
    let (pfx, ch) ← asBranch p
    return objHash H (.branch pfx ch)

/-! ## Which stores -/

/-- What `PMTree` needs: the methods do not panic and do not change nodes, and `GetNode` returns the very pointer that was
put last under the key.  `view` is the store's content; the state may change otherwise (say, a cache), also in `GetNode`. -/
structure KeepsPointers (I : Impl σ) (view : σ → Nibbles → Option Ptr) : Prop where
  get : ∀ k w, ∃ s, I.getNode k w = some (view w.st k, { w with st := s }) ∧ view s = view w.st
  put : ∀ k p w, ∃ s, I.putNode k p w = some ((), { w with st := s }) ∧
    view s = fun q => if q = k then some p else view w.st q
  del : ∀ k w, ∃ s, I.delNode k w = some ((), { w with st := s }) ∧
    view s = fun q => if q = k then none else view w.st q

/-- A store that copies: `PutNode` writes the node's content down, `GetNode` makes a new node from it — what a store on disk
does. -/
def copying : Impl (GoMap NodeObj) where
  getNode k := fun w =>
    match mget w.st k with
    | none => some (none, w)
    | some o => (alloc o w).map fun r => (some r.1, r.2)
  putNode k p := fun w => some ((), { w with st := mput w.st k (w.heap p) })
  delNode k := fun w => some ((), { w with st := mdel w.st k })

/-- The copying store with an empty root branch, as `NewMemStore` has it. -/
def newCopying : GWorld (GoMap NodeObj) :=
  { heap := fun _ => .branch [] (fun _ => Child.zero), next := 0, st := [([], .branch [] (fun _ => Child.zero))] }

/-- Successive `PutEntry` calls. -/
def runPuts (H : Bytes → Hash32) : List (Addr × Bytes) → GWorld σ → Option (GWorld σ)
  | [], w => some w
  | (a, v) :: rest, w =>
    match putEntry I H a v w with
    | none => none
    | some (_, w') => runPuts H rest w'

end Nimiq.Tree.Generic
