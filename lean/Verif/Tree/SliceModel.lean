import Verif.Tree.Model
/-!
# tree.go with Go slices instead of lists

The model of `Verif/Tree/Model.lean` treats `Nibbles` values as immutable lists.  The code uses Go slices: headers that
point into shared arrays, with `append` writing in place when there is capacity.  This file models the same functions
with slice headers and explicit backing arrays, so that every aliasing effect of tree.go is visible; `Slices.lean` proves
that none of them can be observed.

The capacity that `append` allocates is not specified by the language: it is the parameter `grow`, which may give every
allocation a different surplus.  Stores copy their keys (`string(nbs)`), so they are the stores of the list model.
Values are slices of caller memory `vals`, which the tree only reads.
-/
namespace Nimiq.Tree

/-- A slice header: array identity, offset of element 0, length, capacity. -/
structure Slice where
  arr : Nat
  off : Nat
  len : Nat
  cap : Nat
  deriving DecidableEq

/-- The nil slice. Array 0 is reserved for it. -/
def Slice.nil : Slice := ⟨0, 0, 0, 0⟩

/-- node.go:59-63 `Child` -/
structure SChild where
  suffix : Slice
  hash : Hash32
  exist : Bool

/-- The zero value of `Child`. -/
def SChild.zero : SChild := ⟨.nil, BArr.zero 32, false⟩

/-- node.go:15-18 `Branch`, node.go:66-69 `Leaf`; the value of a leaf is a slice of caller memory. -/
inductive SNode where
  | leaf (pfx : Slice) (value : Slice)
  | branch (pfx : Slice) (children : Nib → SChild)

/-- The memory: arrays of nibbles (`nextArr` is the next unused identity), arrays of the caller's values, node objects
and the `Store` field of the tree. -/
structure SWorld where
  arrs : Nat → Nat → Nib
  nextArr : Nat
  vals : Nat → Nat → UInt8
  heap : Ptr → SNode
  next : Ptr
  store : Store

namespace SWorld

/-- `s[i]`, for `i < len(s)` -/
def nib (w : SWorld) (s : Slice) (i : Nat) : Nib := w.arrs s.arr (s.off + i)

/-- The contents of a slice, e.g. `string(s)`. -/
def rd (w : SWorld) (s : Slice) : Nibbles := (List.range s.len).map (w.nib s)

/-- The contents of a value slice. -/
def rdv (w : SWorld) (s : Slice) : Bytes := (List.range s.len).map fun i => w.vals s.arr (s.off + i)

/-- Writing through a node pointer. -/
def write (w : SWorld) (p : Ptr) (o : SNode) : SWorld := { w with heap := fun q => if q = p then o else w.heap q }

/-- `&Leaf{...}`, `&Branch{...}`; the pointer is `w.next`. -/
def alloc (w : SWorld) (o : SNode) : SWorld :=
  { w with heap := fun q => if q = w.next then o else w.heap q, next := w.next + 1 }

/-- `t.Store.PutNode(k, p)` -/
def put (w : SWorld) (k : Nibbles) (p : Ptr) : Option SWorld := (w.store.put k p).map fun s => { w with store := s }

/-- `t.Store.DelNode(k)` -/
def del (w : SWorld) (k : Nibbles) : Option SWorld := (w.store.del k).map fun s => { w with store := s }

end SWorld

/-- `s[n:]`: `none` is a panic. -/
def Slice.from (s : Slice) (n : Nat) : Option Slice :=
  if n ≤ s.len then some ⟨s.arr, s.off + n, s.len - n, s.cap - n⟩ else none

/-- `s[:n]` for `n ≤ len(s)`; the capacity is kept. -/
def Slice.upto (s : Slice) (n : Nat) : Slice := { s with len := n }

/-- `s[:len(s):len(s)]` -/
def Slice.clip (s : Slice) : Slice := { s with cap := s.len }

/-- `append(s, t...)`: in place if the capacity suffices (with the semantics of `memmove`: the elements of `t` are those
before the write), otherwise a new array with room for `grow` more elements than needed. -/
def sAppend (grow : Nat → Nat → Nat → Nat) (w : SWorld) (s t : Slice) : Slice × SWorld :=
  if s.len + t.len ≤ s.cap then
    (⟨s.arr, s.off, s.len + t.len, s.cap⟩,
     { w with arrs := fun a x => if a = s.arr ∧ s.off + s.len ≤ x ∧ x < s.off + s.len + t.len
        then w.nib t (x - (s.off + s.len)) else w.arrs a x })
  else
    (⟨w.nextArr, 0, s.len + t.len, s.len + t.len + grow w.nextArr s.cap (s.len + t.len)⟩,
     { w with
        nextArr := w.nextArr + 1
        arrs := fun a x => if a = w.nextArr
          then (if x < s.len then w.nib s x else if x < s.len + t.len then w.nib t (x - s.len) else 0)
          else w.arrs a x })

/-- store.go:17-24 `KeyToNibbles`: a new array of length and capacity 40. -/
def sKey (w : SWorld) (key : Addr) : Slice × SWorld :=
  (⟨w.nextArr, 0, 40, 40⟩,
   { w with nextArr := w.nextArr + 1, arrs := fun a x => if a = w.nextArr then (keyNibs key).getD x 0 else w.arrs a x })

/-- store.go:64-74: the loop of `CommonPrefix`, `n` iterations from index `i` on -/
def sCommonLoop (w : SWorld) (a b : Slice) : Nat → Nat → Slice → Slice
  | 0, _, common => common
  | n + 1, i, common =>
    if b.len ≤ i then common
    else if w.nib a i = w.nib b i then sCommonLoop w a b n (i + 1) (a.upto (i + 1))
    else common

/-- store.go:63-75 `CommonPrefix`: nil, or a slice of the receiver -/
def sCommon (w : SWorld) (a b : Slice) : Slice := sCommonLoop w a b a.len 0 .nil

/-- Assignment to an array element. -/
def sSet (ch : Nib → SChild) (i : Nib) (c : SChild) : Nib → SChild := fun j => if j = i then c else ch j

/-- node.go:21-27 `PutChild`: `suffix[0]` panics for an empty suffix. -/
def sPutChild (w : SWorld) (ch : Nib → SChild) (suffix : Slice) (h : Hash32) : Option (Nib → SChild) :=
  if suffix.len = 0 then none else some (sSet ch (w.nib suffix 0) ⟨suffix, h, true⟩)

/-- The existing children, in index order. -/
def sExisting (ch : Nib → SChild) : List SChild := ((List.finRange 16).map ch).filter (·.exist)

/-- node.go:36-53: what `Branch.Hash` writes to the hasher -/
def sBranchBytes (w : SWorld) (pfx : Slice) (ch : Nib → SChild) : Bytes :=
  [0x00, UInt8.ofNat pfx.len] ++ hexOf (w.rd pfx) ++ [UInt8.ofNat (sExisting ch).length] ++
    ((sExisting ch).map fun c => [UInt8.ofNat c.suffix.len] ++ hexOf (w.rd c.suffix) ++ c.hash.val).flatten

/-- node.go:35-56 and node.go:83-88 `Hash` -/
def sHashObj (H : Bytes → Hash32) (w : SWorld) : SNode → Hash32
  | .leaf p v => H (leafBytes (w.rd p) (w.rdv v))
  | .branch p ch => H (sBranchBytes w p ch)

/-- tree.go:141-152 `invalidatePath` -/
def sInvalidate : Slice → List Ptr → SWorld → Option SWorld
  | _, [], w => some w
  | current, p :: path, w =>
    match w.heap p with
    | .leaf _ _ => none
    | .branch pfx ch =>
      match current.from pfx.len with
      | none => none
      | some suffix =>
        match sPutChild w ch suffix zeroHash with
        | none => none
        | some ch' => sInvalidate pfx path (w.write p (.branch pfx ch'))

variable (grow : Nat → Nat → Nat → Nat)

/-- tree.go:156-188 `prune`; `append(node.Prefix, children[0].Suffix...)` may write into the array of `node.Prefix`. -/
def sPrune : Slice → List Ptr → SWorld → Option SWorld
  | _, [], w => some w
  | current, p :: path, w =>
    match w.heap p with
    | .leaf _ _ => none
    | .branch pfx ch =>
      if pfx.len < current.len then
        let i := w.nib current pfx.len
        let ch' := sSet ch i { ch i with exist := false }
        let w := w.write p (.branch pfx ch')
        match sExisting ch' with
        | [c] =>
          if pfx.len > 0 then
            match w.del (w.rd pfx) with
            | none => none
            | some w => sInvalidate (sAppend grow w pfx c.suffix).1 path (sAppend grow w pfx c.suffix).2
          else (w.put (w.rd pfx) p).bind (sInvalidate pfx path)
        | [] =>
          if pfx.len = 0 then (w.put (w.rd pfx) p).bind (sInvalidate pfx path)
          else sPrune pfx path w
        | _ => (w.put (w.rd pfx) p).bind (sInvalidate pfx path)
      else none

/-- tree.go:84-96: a new leaf and a new parent -/
def sSplit (nodePrefix pfx value : Slice) (rootPath : List Ptr) (w : SWorld) : Option SWorld :=
  match (w.alloc (.leaf pfx value)).put (w.rd pfx) w.next with
  | none => none
  | some w =>
    let par := sCommon w nodePrefix pfx
    match nodePrefix.from par.len with
    | none => none
    | some s1 =>
      match sPutChild w (fun _ => SChild.zero) s1 zeroHash with
      | none => none
      | some ch1 =>
        match pfx.from par.len with
        | none => none
        | some s2 =>
          match sPutChild w ch1 s2 zeroHash with
          | none => none
          | some ch2 =>
            match (w.alloc (.branch par ch2)).put (w.rd par) w.next with
            | none => none
            | some w => sInvalidate par rootPath w

/-- tree.go:126-135: a new leaf below the branch `node` -/
def sAddLeaf (nodePrefix pfx value : Slice) (rootPath : List Ptr) (node : Ptr) (w : SWorld) : Option SWorld :=
  match (w.alloc (.leaf pfx value)).put (w.rd pfx) w.next with
  | none => none
  | some w =>
    match w.heap node with
    | .leaf _ _ => none
    | .branch npfx ch =>
      match pfx.from npfx.len with
      | none => none
      | some s =>
        match sPutChild w ch s zeroHash with
        | none => none
        | some ch' =>
          let w := w.write node (.branch npfx ch')
          (w.put (w.rd npfx) node).bind (sInvalidate nodePrefix rootPath)

/-- tree.go:81-137 `update`; the descent copies the path (`node.Prefix[:len:len]`), tree.go:123. -/
def sUpdate : Nat → Slice → Slice → Slice → List Ptr → SWorld → Option SWorld
  | 0, _, _, _, _, _ => none
  | fuel + 1, nodePrefix, pfx, value, rootPath, w =>
    if ¬ prefixOf (w.rd nodePrefix) (w.rd pfx) then sSplit nodePrefix pfx value rootPath w
    else if w.rd nodePrefix = w.rd pfx then
      if value.len = 0 then (w.del (w.rd nodePrefix)).bind (sPrune grow nodePrefix rootPath)
      else ((w.alloc (.leaf nodePrefix value)).put (w.rd nodePrefix) w.next).bind (sInvalidate nodePrefix rootPath)
    else
      match w.store.get (w.rd nodePrefix) with
      | none => none
      | some node =>
        match w.heap node with
        | .leaf _ _ => none
        | .branch npfx ch =>
          if npfx.len < pfx.len then
            let target := ch (w.nib pfx npfx.len)
            if target.exist then
              sUpdate fuel (sAppend grow w npfx.clip target.suffix).1 pfx value (node :: rootPath)
                (sAppend grow w npfx.clip target.suffix).2
            else sAddLeaf nodePrefix pfx value rootPath node w
          else none

/-- tree.go:197-204: the loop of `updateHashes`; `append(prefix, suffix...)` may write into the array of `prefix`. -/
def sHashLoop (rec : Slice → SWorld → Option (Hash32 × SWorld)) (pfx : Slice) (p : Ptr) :
    List Nib → SWorld → Option SWorld
  | [], w => some w
  | i :: is, w =>
    match w.heap p with
    | .leaf _ _ => none
    | .branch _ ch =>
      if (ch i).exist ∧ (ch i).hash = zeroHash then
        match rec (sAppend grow w pfx (ch i).suffix).1 (sAppend grow w pfx (ch i).suffix).2 with
        | none => none
        | some (h, w) =>
          match w.heap p with
          | .leaf _ _ => none
          | .branch npfx ch => sHashLoop rec pfx p is (w.write p (.branch npfx (sSet ch i { ch i with hash := h })))
      else sHashLoop rec pfx p is w

/-- tree.go:191-210 `updateHashes` -/
def sUpdateHashes (H : Bytes → Hash32) : Nat → Slice → SWorld → Option (Hash32 × SWorld)
  | 0, _, _ => none
  | fuel + 1, pfx, w =>
    match w.store.get (w.rd pfx) with
    | none => none
    | some p =>
      match w.heap p with
      | .leaf lp v => some (sHashObj H w (.leaf lp v), w)
      | .branch _ _ =>
        match sHashLoop grow (sUpdateHashes H fuel) pfx p (List.finRange 16) w with
        | none => none
        | some w =>
          match w.heap p with
          | .leaf _ _ => none
          | .branch npfx ch => (w.put (w.rd npfx) p).map fun w => (sHashObj H w (.branch npfx ch), w)

/-- tree.go:48-64 `updateEntry` -/
def sUpdateEntry (key : Addr) (value : Slice) (w : SWorld) : Option (Bool × SWorld) :=
  let pfx := (sKey w key).1
  let w := (sKey w key).2
  let changed := (sUpdate grow maxDepth .nil pfx value [] w).map fun w => (true, w)
  match w.store.get (w.rd pfx) with
  | none => if value.len = 0 then some (false, w) else changed
  | some p =>
    match w.heap p with
    | .leaf _ v => if w.rdv v = w.rdv value then some (false, w) else changed
    | .branch _ _ => changed

/-- tree.go:42-46 `PutEntry` -/
def sPutEntry (H : Bytes → Hash32) (key : Addr) (value : Slice) (w : SWorld) : Option (Bool × SWorld) :=
  match sUpdateEntry grow key value w with
  | none => none
  | some (changed, w) => (sUpdateHashes grow H maxDepth .nil w).map fun r => (changed, r.2)

/-- tree.go:25-35 `GetEntry`: returns the leaf's own value slice; `none` is a nil slice. -/
def sGetEntry (key : Addr) (w : SWorld) : Option (Option Slice × SWorld) :=
  let pfx := (sKey w key).1
  let w := (sKey w key).2
  match w.store.get (w.rd pfx) with
  | none => some (none, w)
  | some p =>
    match w.heap p with
    | .leaf _ v => some (some v, w)
    | .branch _ _ => none

/-- tree.go:67-69 `Hash` -/
def sHash (H : Bytes → Hash32) (w : SWorld) : Option Hash32 :=
  match w.store.get [] with
  | none => none
  | some p =>
    match w.heap p with
    | .leaf _ _ => none
    | .branch pfx ch => some (sHashObj H w (.branch pfx ch))

/-- store_mem.go:9-15 `NewMemStore`, in a program whose value memory is `vals`. -/
def sNew (vals : Nat → Nat → UInt8) : SWorld :=
  { arrs := fun _ _ => 0, nextArr := 1, vals, heap := fun _ => .branch .nil (fun _ => SChild.zero), next := 1,
    store := .mem [([], 0)] }

end Nimiq.Tree
