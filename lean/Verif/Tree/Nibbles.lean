import Verif.Basic
/-!
# Model of the nibble functions of `tree/store.go:10-87` (and their verbatim copy `wire/nibbles.go:5-80`)

Here nibble lists are raw `[]byte`, as in Go, so that out-of-range nibbles are visible.
-/
namespace Nimiq.Tree

/-- store.go:14 `hexTable` -/
def hexTable : List UInt8 :=
  [0x30,0x31,0x32,0x33,0x34,0x35,0x36,0x37,0x38,0x39,0x61,0x62,0x63,0x64,0x65,0x66]

/-- store.go:17-24 `KeyToNibbles` (the Go parameter is a 20 byte array) -/
def keyToNibbles : Bytes → Bytes
  | [] => []
  | b :: bs => (b >>> 4) :: (b &&& 0xF) :: keyToNibbles bs

/-- store.go:32-34: the loop of `ToKey` over pairs -/
def toKeyLoop : Bytes → Bytes
  | h :: l :: rest => ((h <<< 4) ||| l) :: toKeyLoop rest
  | _ => []

/-- store.go:28-36 `ToKey` -/
def toKey (nbs : Bytes) : Out Bytes :=
  if nbs.length ≠ 40 then .panic else .ok (toKeyLoop nbs)

/-- store.go:40-46: the loop of `Compress`; `i` is the position, `buf` the output buffer. Writing outside of the buffer
panics. -/
def compressLoop : Nat → Bytes → Bytes → Out Bytes
  | _, [], buf => .ok buf
  | i, n :: ns, buf =>
    if i / 2 < buf.length then
      if i % 2 = 0 then compressLoop (i+1) ns (buf.set (i/2) (n <<< 4))
      else compressLoop (i+1) ns (buf.set (i/2) (buf.getD (i/2) 0 ||| (n &&& 0xF)))
    else .panic

/-- store.go:38-48 `Compress`: `make([]byte, (len(nbs)-1)/2)`; Go's `/` truncates towards zero, so the size is 0 for the
empty list. -/
def compress (nbs : Bytes) : Out Bytes :=
  compressLoop 0 nbs (List.replicate ((nbs.length - 1) / 2) 0)

/-- store.go:51-57 `HexBytes`: `hexTable[nb]` panics for `nb ≥ 16`. -/
def hexBytes : Bytes → Out Bytes
  | [] => .ok []
  | nb :: nbs =>
    match hexTable[nb.toNat]? with
    | none => .panic
    | some c =>
      match hexBytes nbs with
      | .ok r => .ok (c :: r)
      | .err e => .err e
      | .panic => .panic

/-- store.go:63-75 `CommonPrefix` (for any element type; used for raw bytes here and for nibbles in the tree model).
The loop extends the result while both lists agree. -/
def commonPrefix {α : Type} [DecidableEq α] : List α → List α → List α
  | a :: as, b :: bs => if a = b then a :: commonPrefix as bs else []
  | _, _ => []

/-- store.go:77-87 `PrefixOf` -/
def prefixOf {α : Type} [DecidableEq α] : List α → List α → Bool
  | [], _ => true
  | _ :: _, [] => false
  | a :: as, b :: bs => if a = b then prefixOf as bs else false

end Nimiq.Tree
