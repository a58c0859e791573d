import Verif.Beserial.Model
/-!
# `Unmarshal` and `Marshal` with their memory

The codec again, now with the byte arrays that slices point into.  A heap is the list of all byte arrays ever allocated (a
new one is added at the end), a `[]byte` is a reference to a part of one of them.  The input of `Unmarshal` is such a
reference, and `pop` returns references into the same array without copying, as in Go; whatever the decoder keeps has to be
copied for the result not to change with the input buffer.

Only `[]byte` (and `net.IP`) values are references.  Arrays lie inside the value, `string(b)` is a copy by the language, and
slices of anything else are made by `reflect.MakeSlice` and cannot share memory with an input of bytes; they are lists here.
-/
namespace Nimiq.Beserial

/-- All byte arrays, by order of allocation. -/
abbrev Heap := List Bytes

/-- A slice header: the array, the offset of the first byte, the number of bytes.  (Capacities play no part in decoding.)
The nil slice is any reference of length 0. -/
structure Ref where
  arr : Nat
  off : Nat
  len : Nat
  deriving DecidableEq

/-- The bytes a slice shows. -/
def Ref.bytes (h : Heap) (r : Ref) : Bytes := ((h[r.arr]?.getD []).drop r.off).take r.len

/-- The slice lies within its array. -/
def Ref.Valid (h : Heap) (r : Ref) : Prop := r.arr < h.length ∧ r.off + r.len ≤ (h[r.arr]?.getD []).length

/-- A nil slice. -/
def Ref.nil : Ref := ⟨0, 0, 0⟩

/-- `make([]byte, n)` followed by `copy(s, b)`, where `len(b) = n` -/
def allocCopy (h : Heap) (b : Ref) : Heap × Ref := (h ++ [b.bytes h], ⟨h.length, 0, b.len⟩)

/-! ### Appending

`Marshal` builds its output with `append` only, and which appends it does depends on the value's numbers, lengths and nil
pointers, not on the bytes behind its slices.  So an encoder is described by the list of its appends, and memory comes in when
the list is run. -/

/-- What is appended: bytes from registers, from an array inside the value or from a string, or the bytes of a slice. -/
inductive Src where
  | lit (b : Bytes)
  | slice (r : Ref)

/-- A step of an encoder: `b = append(b, s...)`, or `b = nil` (encode.go:63-64, where the nil that comes with an error is kept
and the error is not). -/
inductive Act where
  | append (s : Src)
  | reset

/-- The steps of an encoder, and whether it then returns `b`, returns an error (with nil), or panics. -/
abbrev Trace := List Act × Out Unit

/-- One encoder after another. -/
def Trace.andThen (x y : Trace) : Trace :=
  match x with
  | (as, .ok ()) => (as ++ y.1, y.2)
  | (as, .err e) => (as, .err e)
  | (as, .panic) => (as, .panic)

/-- A loop over the elements of a slice or an array. -/
def Trace.all : List Trace → Trace
  | [] => ([], .ok ())
  | x :: xs => x.andThen (Trace.all xs)

/-- Just appending. -/
def Trace.put (ss : List Src) : Trace := (ss.map .append, .ok ())

/-- A type with custom methods, its values having references into the heap: `load` is the value a caller sees, `refs` are
the slices in it. -/
structure HCodec where
  base : Codec
  Cell : Type
  zero : Cell
  load : Heap → Cell → base.α
  refs : Cell → List Ref
  /-- `UnmarshalBESerial` -/
  dec : Cell → Heap → Ref → Heap × Out (Nat × Cell)
  /-- `MarshalBESerial` -/
  acts : Cell → Trace

/-- A custom type whose values hold no slice of bytes: its decoder copies into arrays and numbers inside the value. -/
def HCodec.plain (c : Codec) (acts : c.α → Trace) : HCodec where
  base := c
  Cell := c.α
  zero := c.zero
  load _ v := v
  refs _ := []
  dec p h d := (h, c.dec p (d.bytes h))
  acts := acts

mutual
/-- Go types, as `Ty`. -/
inductive HTy : Type 1 where
  | num (k : NumKind)
  | bool
  | str
  | byteArr (n : Nat)
  | byteSlice
  | arr (n : Nat) (t : HTy)
  | slice (t : HTy)
  | ptr (t : HTy)
  | struct (fs : HFields)
  | custom (c : HCodec)
  | unsupported (α : Type) (zero : α)
inductive HFields : Type 1 where
  | nil
  | cons (tag : Option (List Char)) (t : HTy) (fs : HFields)
end

mutual
/-- The same type in the model without memory. -/
@[reducible] def HTy.erase : HTy → Ty
  | .num k => .num k
  | .bool => .bool
  | .str => .str
  | .byteArr n => .byteArr n
  | .byteSlice => .byteSlice
  | .arr n t => .arr n t.erase
  | .slice t => .slice t.erase
  | .ptr t => .ptr t.erase
  | .struct fs => .struct fs.erase
  | .custom c => .custom c.base
  | .unsupported α z => .unsupported α z
@[reducible] def HFields.erase : HFields → Fields
  | .nil => .nil
  | .cons tag t fs => .cons tag t.erase fs.erase
end

mutual
/-- Variables of a type. -/
@[reducible] def HTy.Cell : HTy → Type
  | .num k => k.Val
  | .bool => Bool
  | .str => Bytes
  | .byteArr n => BArr n
  | .byteSlice => Ref
  | .arr n t => { l : List t.Cell // l.length = n }
  | .slice t => List t.Cell
  | .ptr t => Option t.Cell
  | .struct fs => fs.Cell
  | .custom c => c.Cell
  | .unsupported α _ => α
@[reducible] def HFields.Cell : HFields → Type
  | .nil => Unit
  | .cons _ t fs => t.Cell × fs.Cell
end

mutual
/-- Go's zero values: slices are nil. -/
def HTy.zero : (t : HTy) → t.Cell
  | .num k => k.zero
  | .bool => false
  | .str => []
  | .byteArr n => BArr.zero n
  | .byteSlice => Ref.nil
  | .arr n t => ⟨List.replicate n t.zero, by simp⟩
  | .slice _ => []
  | .ptr _ => none
  | .struct fs => fs.zero
  | .custom c => c.zero
  | .unsupported _ z => z
def HFields.zero : (fs : HFields) → fs.Cell
  | .nil => ()
  | .cons _ t fs => (t.zero, fs.zero)
end

mutual
/-- The value of a variable as a caller sees it at a moment. -/
def HTy.load : (t : HTy) → Heap → t.Cell → t.erase.Val
  | .num _, _, v => v
  | .bool, _, v => v
  | .str, _, v => v
  | .byteArr _, _, v => v
  | .byteSlice, h, r => r.bytes h
  | .arr _ t, h, v => ⟨v.val.map (t.load h), by rw [List.length_map]; exact v.property⟩
  | .slice t, h, v => v.map (t.load h)
  | .ptr t, h, v => v.map (t.load h)
  | .struct fs, h, v => fs.load h v
  | .custom c, h, v => c.load h v
  | .unsupported _ _, _, v => v
def HFields.load : (fs : HFields) → Heap → fs.Cell → fs.erase.Val
  | .nil, _, _ => ()
  | .cons _ t fs, h, v => (t.load h v.1, fs.load h v.2)
end

mutual
/-- All byte slices in a variable, and behind its pointers. -/
def HTy.refs : (t : HTy) → t.Cell → List Ref
  | .byteSlice, r => [r]
  | .arr _ t, v => (v.val.map t.refs).flatten
  | .slice t, v => (v.map t.refs).flatten
  | .ptr t, v => match v with
    | none => []
    | some x => t.refs x
  | .struct fs, v => fs.refs v
  | .custom c, v => c.refs v
  | .num _, _ | .bool, _ | .str, _ | .byteArr _, _ | .unsupported _ _, _ => []
def HFields.refs : (fs : HFields) → fs.Cell → List Ref
  | .nil, _ => []
  | .cons _ t fs, v => t.refs v.1 ++ fs.refs v.2
end

/-- How `decodeState.value` ends; `rest` is `d.data` then. -/
inductive HRes (α : Type) where
  | ok (v : α) (rest : Ref)
  | err (e : Err) (rest : Ref)
  | panic

def HRes.map {α β} (f : α → β) : HRes α → HRes β
  | .ok v r => .ok (f v) r
  | .err e r => .err e r
  | .panic => .panic

/-- decode.go:272-278 `pop`: `d.data[:n]` and `d.data[n:]` -/
def popH (n : Nat) (d : Ref) : Option (Ref × Ref) :=
  if n > d.len then none else some (⟨d.arr, d.off, n⟩, ⟨d.arr, d.off + n, d.len - n⟩)

/-- decode.go:71-80 -/
def runCustomH {α} (f : α → Heap → Ref → Heap × Out (Nat × α)) (prev : α) (h : Heap) (d : Ref) : Heap × HRes α :=
  match f prev h d with
  | (h, .ok (n, v)) => if n > d.len then (h, .panic) else (h, .ok v ⟨d.arr, d.off + n, d.len - n⟩)
  | (h, .err e) => (h, .err e d)
  | (h, .panic) => (h, .panic)

/-- decode.go:117-121, 164-168 -/
def decLoopH {α} (f : α → Heap → Ref → Heap × HRes α) :
    (prev : List α) → Heap → Ref → Heap × HRes { l : List α // l.length = prev.length }
  | [], h, d => (h, .ok ⟨[], rfl⟩ d)
  | p :: prev, h, d =>
    match f p h d with
    | (h, .ok v d) =>
      match decLoopH f prev h d with
      | (h, .ok l d) => (h, .ok ⟨v :: l.val, by simp [l.property]⟩ d)
      | (h, .err e d) => (h, .err e d)
      | (h, .panic) => (h, .panic)
    | (h, .err e d) => (h, .err e d)
    | (h, .panic) => (h, .panic)

/-- decode.go:122-140: the length is read from the input -/
def readLenH (ts : Tags) (h : Heap) (d : Ref) : HRes Nat :=
  match ts.lenTag with
  | none => .err .noLenTag d
  | some k =>
    match popH k.size d with
    | none => .err .eof d
    | some (b, d) => if getBE (b.bytes h) > maxInt then .err .badLen d else .ok (getBE (b.bytes h)) d

mutual
/-- decode.go:60-214 `value` (a pointer to a type with custom methods is outside this model: there is none in the
repository) -/
def decodeH : (t : HTy) → t.Cell → Tags → Heap → Ref → Heap × HRes t.Cell
  | .custom c, prev, _, h, d => runCustomH c.dec prev h d
  | .ptr t, _, ts, h, d =>
    if ts.optional then
      match popH 1 d with
      | none => (h, .err .eof d)
      | some (flag, d) =>
        if flag.bytes h = [0x00] then (h, .ok none d)
        else if flag.bytes h = [0x01] then
          match decodeH t t.zero ts h d with
          | (h, r) => (h, r.map some)
        else (h, .err .badOptional d)
    else match decodeH t t.zero ts h d with
      | (h, r) => (h, r.map some)
  -- decode.go:109-116: `reflect.Copy(v, b)`
  | .byteArr n, _, _, h, d =>
    match popH n d with
    | none => (h, .err .eof d)
    | some (b, d) => (h, .ok (BArr.copy n (b.bytes h)) d)
  | .arr n t, prev, _, h, d =>
    match decLoopH (fun p h d => decodeH t p {} h d) prev.val h d with
    | (h, .ok l d) => (h, .ok ⟨l.val, by rw [l.property, prev.property]⟩ d)
    | (h, .err e d) => (h, .err e d)
    | (h, .panic) => (h, .panic)
  -- decode.go:141-147: `v.SetString(string(b))`
  | .str, _, ts, h, d =>
    match readLenH ts h d with
    | .ok u d =>
      match popH u d with
      | none => (h, .err .eof d)
      | some (b, d) => (h, .ok (b.bytes h) d)
    | .err e d => (h, .err e d)
    | .panic => (h, .panic)
  -- decode.go:148-156: `slice := reflect.MakeSlice(...)`, `copy(slice.Bytes(), b)`, `v.Set(slice)`
  | .byteSlice, _, ts, h, d =>
    match readLenH ts h d with
    | .ok u d =>
      match popH u d with
      | none => (h, .err .eof d)
      | some (b, d) => ((allocCopy h b).1, .ok (allocCopy h b).2 d)
    | .err e d => (h, .err e d)
    | .panic => (h, .panic)
  | .slice t, _, ts, h, d =>
    match readLenH ts h d with
    | .ok u d =>
      if u > d.len then (h, .err .tooLargeAlloc d)
      else match decLoopH (fun p h d => decodeH t p {} h d) (List.replicate u t.zero) h d with
        | (h, r) => (h, r.map (·.val))
    | .err e d => (h, .err e d)
    | .panic => (h, .panic)
  | .struct fs, prev, _, h, d => decodeFieldsH fs prev h d
  | .bool, _, _, h, d =>
    match popH 1 d with
    | none => (h, .err .eof d)
    | some (b, d) =>
      if b.bytes h = [0] then (h, .ok false d)
      else if b.bytes h = [1] then (h, .ok true d)
      else (h, .err .badBool d)
  | .num k, _, _, h, d =>
    match popH k.size d with
    | none => (h, .err .eof d)
    | some (b, d) => (h, .ok (getNum k (b.bytes h)) d)
  | .unsupported _ _, _, _, h, d => (h, .err .cannotMarshal d)
/-- decode.go:170-185 -/
def decodeFieldsH : (fs : HFields) → fs.Cell → Heap → Ref → Heap × HRes fs.Cell
  | .nil, _, h, d => (h, .ok () d)
  | .cons tag t fs, prev, h, d =>
    match fieldTags tag with
    | none => (h, .panic)
    | some ts =>
      match decodeH t prev.1 ts h d with
      | (h, .ok v d) =>
        match decodeFieldsH fs prev.2 h d with
        | (h, r) => (h, r.map fun vs => (v, vs))
      | (h, .err e d) => (h, .err e d)
      | (h, .panic) => (h, .panic)
end

/-- decode.go:22-43 `Unmarshal(b, &x)` for a variable `x` that holds `prev`: the memory afterwards and the result. -/
def UnmarshalH (t : HTy) (prev : t.Cell) (h : Heap) (b : Ref) : Heap × HRes t.Cell := decodeH t prev {} h b

/-! ## Marshal -/

mutual
/-- encode.go:33-123 `marshal`: its appends, in order (a pointer to a type with custom methods is outside this model) -/
def acts : (t : HTy) → t.Cell → Tags → Trace
  | .custom c, v, _ => c.acts v
  | .ptr t, v, ts =>
    match v with
    | none => if ts.optional then .put [.lit [0x00]] else ([], .err .nonOptionalNil)
    | some x =>
      let flag : Trace := if ts.optional then .put [.lit [0x01]] else .put []
      match acts t x ts with
      | (as, .ok ()) => flag.andThen (as, .ok ())
      | (as, .err _) => flag.andThen (as ++ [.reset], .ok ())
      | (as, .panic) => flag.andThen (as, .panic)
  | .byteArr _, v, _ => .put [.lit v.val]
  | .arr _ t, v, _ => .all (v.val.map fun x => acts t x {})
  | .str, v, ts =>
    match ts.lenTag with
    | none => ([], .err .noLenTag)
    | some k => .put [.lit (putLen k v.length), .lit v]
  | .byteSlice, v, ts =>
    match ts.lenTag with
    | none => ([], .err .noLenTag)
    | some k => .put [.lit (putLen k v.len), .slice v]
  | .slice t, v, ts =>
    match ts.lenTag with
    | none => ([], .err .noLenTag)
    | some k => (Trace.put [.lit (putLen k v.length)]).andThen (.all (v.map fun x => acts t x {}))
  | .struct fs, v, _ => actsFields fs v
  | .bool, v, _ => .put [.lit [if v then 0x01 else 0x00]]
  | .num k, v, _ => .put [.lit (putNum k v)]
  | .unsupported _ _, _, _ => ([], .err .cannotMarshal)
/-- encode.go:89-102 -/
def actsFields : (fs : HFields) → fs.Cell → Trace
  | .nil, _ => ([], .ok ())
  | .cons tag t fs, v =>
    match fieldTags tag with
    | none => ([], .panic)
    | some ts => (acts t v.1 ts).andThen (actsFields fs v.2)
end

/-- A slice that is appended to: array, offset, length and capacity (counted from the offset). -/
structure Buf where
  arr : Nat
  off : Nat
  len : Nat
  cap : Nat

/-- `nil` -/
def Buf.nil : Buf := ⟨0, 0, 0, 0⟩

/-- The slice as a reference to its visible bytes. -/
def Buf.ref (b : Buf) : Ref := ⟨b.arr, b.off, b.len⟩

/-- `copy(a[k:], s)` where `s` fits -/
def splice (a : Bytes) (k : Nat) (s : Bytes) : Bytes := a.take k ++ s ++ a.drop (k + s.length)

/-- `append(b, s...)`: in place if the capacity suffices, otherwise into a new array whose capacity is chosen by the runtime
(`grow`, from the old capacity and the length needed). -/
def appendH (grow : Nat → Nat → Nat) (h : Heap) (b : Buf) (s : Bytes) : Heap × Buf :=
  if b.len + s.length ≤ b.cap then
    (h.set b.arr (splice (h[b.arr]?.getD []) (b.off + b.len) s), { b with len := b.len + s.length })
  else
    let n := b.len + s.length
    (h ++ [b.ref.bytes h ++ s ++ List.replicate (grow b.cap n - n) 0], ⟨h.length, 0, n, grow b.cap n⟩)

/-- The bytes appended, at the moment of the call. -/
def Src.bytes (h : Heap) : Src → Bytes
  | .lit b => b
  | .slice r => r.bytes h

/-- Running the appends. -/
def runActs (grow : Nat → Nat → Nat) : List Act → Heap → Buf → Heap × Buf
  | [], h, b => (h, b)
  | .append s :: as, h, b => match appendH grow h b (s.bytes h) with
    | (h, b) => runActs grow as h b
  | .reset :: as, h, _ => runActs grow as h .nil

/-- encode.go:10-24 `Marshal(b, &x)`: the memory afterwards and the result. -/
def MarshalH (grow : Nat → Nat → Nat) (t : HTy) (v : t.Cell) (h : Heap) (b : Buf) : Heap × Out Buf :=
  match acts t v {} with
  | (as, .ok ()) => match runActs grow as h b with
    | (h, b) => (h, .ok b)
  | (as, .err e) => ((runActs grow as h b).1, .err e)
  | (as, .panic) => ((runActs grow as h b).1, .panic)

end Nimiq.Beserial
