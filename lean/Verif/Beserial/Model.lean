import Verif.Basic
/-!
# Model of package `beserial`

The package works by reflection over Go types.  `Ty` is a universe of Go types, `Ty.Val` the values of a type, and the
model functions are the reflective walks of encode.go, decode.go and size.go.

Simplifications (see also DESIGN.md):
* a nil slice and an empty slice are the same value (`Marshal` and `Size` treat them alike, `Unmarshal` always makes an
  empty slice);
* `[n]uint8`/`[]uint8` (which the code special-cases) are the separate constructors `byteArr`/`byteSlice`;
* struct fields are exported (so `CanInterface` holds) and values are addressable (everything is reached from a pointer);
* a type has either both custom methods or none (true of every type in the repository);
* the standard library's `binary.BigEndian` functions are `putBE`/`getBE`.
-/
namespace Nimiq.Beserial

/-! ## Numbers -/

/-- The integer kinds of `reflect` that the package knows. -/
inductive NumKind where
  | u8 | u16 | u32 | u64 | i8 | i16 | i32 | i64
  deriving DecidableEq

/-- Values of a kind. -/
@[reducible] def NumKind.Val : NumKind → Type
  | .u8 => UInt8 | .u16 => UInt16 | .u32 => UInt32 | .u64 => UInt64
  | .i8 => Int8 | .i16 => Int16 | .i32 => Int32 | .i64 => Int64

/-- size.go:98-111 `sizeNumber` -/
def NumKind.size : NumKind → Nat
  | .u8 | .i8 => 1
  | .u16 | .i16 => 2
  | .u32 | .i32 => 4
  | .u64 | .i64 => 8

/-- `binary.BigEndian.PutUintN` of the low `8 * n` bits of `x`. -/
def putBE : Nat → Nat → Bytes
  | 0, _ => []
  | n + 1, x => UInt8.ofNat (x / 256 ^ n) :: putBE n x

/-- `binary.BigEndian.UintN` -/
def getBE (b : Bytes) : Nat := b.foldl (fun acc d => 256 * acc + d.toNat) 0

/-- encode.go:149-175 `marshalNumber`: `uintN(intN(v.Int()))` is the two's complement. -/
def putNum : (k : NumKind) → k.Val → Bytes
  | .u8, x => putBE 1 x.toNat
  | .u16, x => putBE 2 x.toNat
  | .u32, x => putBE 4 x.toNat
  | .u64, x => putBE 8 x.toNat
  | .i8, x => putBE 1 (x.toInt % 2 ^ 8).toNat
  | .i16, x => putBE 2 (x.toInt % 2 ^ 16).toNat
  | .i32, x => putBE 4 (x.toInt % 2 ^ 32).toNat
  | .i64, x => putBE 8 (x.toInt % 2 ^ 64).toNat

/-- decode.go:216-269 `number` on the popped bytes, followed by `SetInt`/`SetUint` (decode.go:208-212), which wrap to the
kind's width. Kind `Int32` is read without sign extension (decode.go:259), the wrap repairs it. -/
def getNum : (k : NumKind) → Bytes → k.Val
  | .u8, b => UInt8.ofNat (getBE b)
  | .u16, b => UInt16.ofNat (getBE b)
  | .u32, b => UInt32.ofNat (getBE b)
  | .u64, b => UInt64.ofNat (getBE b)
  | .i8, b => Int8.ofInt (Int8.ofInt (getBE b)).toInt
  | .i16, b => Int16.ofInt (Int16.ofInt (getBE b)).toInt
  | .i32, b => Int32.ofInt (getBE b)
  | .i64, b => Int64.ofInt (getBE b)

/-! ## Struct tags -/

/-- Length tag kinds. `parse` never produces a signed one, so the signed branch decode.go:130-135 is dead code. -/
inductive LenKind where
  | u8 | u16 | u32 | u64
  deriving DecidableEq

def LenKind.size : LenKind → Nat
  | .u8 => 1 | .u16 => 2 | .u32 => 4 | .u64 => 8

/-- tags.go:8-12 `tags` (`tagName` is unused) -/
structure Tags where
  lenTag : Option LenKind := none
  optional : Bool := false
  deriving DecidableEq

def sOptional : List Char := ['o', 'p', 't', 'i', 'o', 'n', 'a', 'l']
def sLenTag : List Char := ['l', 'e', 'n', '_', 't', 'a', 'g', '=']
def sUint8 : List Char := ['u', 'i', 'n', 't', '8']
def sUint16 : List Char := ['u', 'i', 'n', 't', '1', '6']
def sUint32 : List Char := ['u', 'i', 'n', 't', '3', '2']
def sUint64 : List Char := ['u', 'i', 'n', 't', '6', '4']

/-- `strings.Split(tag, ",")` -/
def splitComma : List Char → List (List Char)
  | [] => [[]]
  | c :: cs =>
    if c = ',' then [] :: splitComma cs
    else match splitComma cs with
      | [] => [[c]]
      | el :: els => (c :: el) :: els

/-- tags.go:19-39: the loop of `parse`; note that the `len_tag` test looks at the whole `tag`, not at `el`. `none` is a
panic. -/
def parseLoop (tag : List Char) : List (List Char) → Tags → Option Tags
  | [], ts => some ts
  | el :: els, ts =>
    if el = sOptional then parseLoop tag els { ts with optional := true }
    else if sLenTag <+: tag then
      let rest := tag.drop sLenTag.length
      if rest = sUint8 then parseLoop tag els { ts with lenTag := some .u8 }
      else if rest = sUint16 then parseLoop tag els { ts with lenTag := some .u16 }
      else if rest = sUint32 then parseLoop tag els { ts with lenTag := some .u32 }
      else if rest = sUint64 then parseLoop tag els { ts with lenTag := some .u64 }
      else none
    else none

/-- tags.go:14-40 `parse` -/
def parseTag (tag : List Char) : Option Tags := parseLoop tag (splitComma tag) {}

/-- encode.go:92-96: the tags of a struct field; `none` is a field without a beserial tag. -/
def fieldTags : Option (List Char) → Option Tags
  | none => some {}
  | some tag => parseTag tag

/-! ## Types and values -/

/-- What a type with a custom decoder costs, for the theorems on memory and time only: its size and alignment, the
bytes `UnmarshalBESerial` requests with `make` and `new` on an input (also if it fails in the end), and the steps it takes
(rounds of loops, bytes copied, calls of the generic decoder).  `base`, `rate`, `workBase`, `workRate` are not code: they
are the bounds `alloc` and `work` are meant to have. -/
structure MemInfo where
  size : Nat
  align : Nat
  alloc : Bytes → Nat
  base : Nat
  rate : Nat
  work : Bytes → Nat
  workBase : Nat
  workRate : Nat

/-- A type with custom methods (`Marshaler` and `Unmarshaler`).  `gsize` is what the generic walk of size.go returns for
the underlying type (size.go never calls `SizeBESerial`).  `spec` and `min` are not code: they are the encoding the type is
meant to have and a lower bound on its length, for the specification. -/
structure Codec where
  α : Type
  zero : α
  /-- `UnmarshalBESerial`, called on a value that holds the first argument -/
  dec : α → Bytes → Out (Nat × α)
  /-- `MarshalBESerial` -/
  enc : α → Bytes → Out Bytes
  gsize : α → Out Nat
  spec : α → Option Bytes
  min : Nat
  mem : MemInfo

mutual
/-- Go types. -/
inductive Ty : Type 1 where
  | num (k : NumKind)
  | bool
  | str
  | byteArr (n : Nat)
  | byteSlice
  | arr (n : Nat) (t : Ty)
  | slice (t : Ty)
  | ptr (t : Ty)
  | struct (fs : Fields)
  | custom (c : Codec)
  /-- interface, map, chan, func, float, complex, int, uint, uintptr -/
  | unsupported (α : Type) (zero : α)
/-- Struct fields: the beserial tag if there is one, and the type. -/
inductive Fields : Type 1 where
  | nil
  | cons (tag : Option (List Char)) (t : Ty) (fs : Fields)
end

mutual
/-- Values of a Go type. -/
@[reducible] def Ty.Val : Ty → Type
  | .num k => k.Val
  | .bool => Bool
  | .str => Bytes
  | .byteArr n => BArr n
  | .byteSlice => Bytes
  | .arr n t => { l : List t.Val // l.length = n }
  | .slice t => List t.Val
  | .ptr t => Option t.Val
  | .struct fs => fs.Val
  | .custom c => c.α
  | .unsupported α _ => α
@[reducible] def Fields.Val : Fields → Type
  | .nil => Unit
  | .cons _ t fs => t.Val × fs.Val
end

def NumKind.zero : (k : NumKind) → k.Val
  | .u8 => (0 : UInt8) | .u16 => (0 : UInt16) | .u32 => (0 : UInt32) | .u64 => (0 : UInt64)
  | .i8 => (0 : Int8) | .i16 => (0 : Int16) | .i32 => (0 : Int32) | .i64 => (0 : Int64)

mutual
/-- Go's zero values. -/
def Ty.zero : (t : Ty) → t.Val
  | .num k => k.zero
  | .bool => false
  | .str => []
  | .byteArr n => BArr.zero n
  | .byteSlice => []
  | .arr n t => ⟨List.replicate n t.zero, by simp⟩
  | .slice _ => []
  | .ptr _ => none
  | .struct fs => fs.zero
  | .custom c => c.zero
  | .unsupported _ z => z
def Fields.zero : (fs : Fields) → fs.Val
  | .nil => ()
  | .cons _ t fs => (t.zero, fs.zero)
end

/-! ## Marshal -/

/-- encode.go:128-147 `marshalInt`: `uintN(n)` truncates. -/
def putLen (k : LenKind) (n : Nat) : Bytes := putBE k.size n

/-- The custom encoder of `t`, if `*t` has methods (encode.go:36-47). -/
def Ty.customEnc : (t : Ty) → Option (t.Val → Bytes → Out Bytes)
  | .custom c => some c.enc
  | _ => none

mutual
/-- encode.go:33-123 `marshal`. An error always comes with nil bytes. -/
def marshal : (t : Ty) → t.Val → Bytes → Tags → Out Bytes
  | .custom c, v, b, _ => c.enc v b
  | .ptr t, v, b, ts =>
    match t.customEnc with
    | some f =>
      -- encode.go:38-47: the methods of a pointer type are called on the pointer, a nil receiver panics
      match v with
      | none => .panic
      | some x => f x b
    | none =>
      match v with
      | none => if ts.optional then .ok (b ++ [0x00]) else .err .nonOptionalNil
      | some x =>
        let b := if ts.optional then b ++ [0x01] else b
        -- encode.go:63-64: `b, err = marshal(...)` and then `return b, nil`
        match marshal t x b ts with
        | .ok b => .ok b
        | .err _ => .ok []
        | .panic => .panic
  | .byteArr _, v, b, _ => .ok (b ++ v.val)
  | .arr _ t, v, b, _ => v.val.foldlM (fun b x => marshal t x b {}) b
  | .str, v, b, ts =>
    match ts.lenTag with
    | none => .err .noLenTag
    | some k => .ok (b ++ putLen k v.length ++ v)
  | .byteSlice, v, b, ts =>
    match ts.lenTag with
    | none => .err .noLenTag
    | some k => .ok (b ++ putLen k v.length ++ v)
  | .slice t, v, b, ts =>
    match ts.lenTag with
    | none => .err .noLenTag
    | some k => v.foldlM (fun b x => marshal t x b {}) (b ++ putLen k v.length)
  | .struct fs, v, b, _ => marshalFields fs v b
  | .bool, v, b, _ => .ok (b ++ [if v then 0x01 else 0x00])
  | .num k, v, b, _ => .ok (b ++ putNum k v)
  | .unsupported _ _, _, _, _ => .err .cannotMarshal
/-- encode.go:89-102: the struct case of `marshal` -/
def marshalFields : (fs : Fields) → fs.Val → Bytes → Out Bytes
  | .nil, _, b => .ok b
  | .cons tag t fs, v, b =>
    match fieldTags tag with
    | none => .panic
    | some ts =>
      match marshal t v.1 b ts with
      | .ok b => marshalFields fs v.2 b
      | .err e => .err e
      | .panic => .panic
end

/-! ## Unmarshal -/

/-- How `decodeState.value` ends; the unread data is observable in both non-panicking cases. -/
inductive Res (α : Type) where
  | ok (v : α) (rest : Bytes)
  | err (e : Err) (rest : Bytes)
  | panic

def Res.map {α β} (f : α → β) : Res α → Res β
  | .ok v r => .ok (f v) r
  | .err e r => .err e r
  | .panic => .panic

/-- decode.go:272-278 `pop` -/
def pop (n : Nat) (d : Bytes) : Option (Bytes × Bytes) :=
  if n > d.length then none else some (d.take n, d.drop n)

/-- The custom decoder of `t`, if `*t` has methods. -/
def Ty.customDec : (t : Ty) → Option (t.Val → Bytes → Out (Nat × t.Val))
  | .custom c => some c.dec
  | _ => none

/-- decode.go:71-80: calling a custom decoder -/
def runCustom {α} (f : α → Bytes → Out (Nat × α)) (prev : α) (d : Bytes) : Res α :=
  match f prev d with
  | .ok (n, v) => if n > d.length then .panic else .ok v (d.drop n)
  | .err e => .err e d
  | .panic => .panic

/-- decode.go:117-121, 164-168: decoding the elements one after the other, in place -/
def decLoop {α} (f : α → Bytes → Res α) : (prev : List α) → Bytes → Res { l : List α // l.length = prev.length }
  | [], d => .ok ⟨[], rfl⟩ d
  | p :: prev, d =>
    match f p d with
    | .ok v d =>
      match decLoop f prev d with
      | .ok l d => .ok ⟨v :: l.val, by simp [l.property]⟩ d
      | .err e d => .err e d
      | .panic => .panic
    | .err e d => .err e d
    | .panic => .panic

/-- `const maxInt = (^uint(0)) >> 1` -/
def maxInt : Nat := 2 ^ 63 - 1

/-- decode.go:122-140: reading a slice length -/
def readLen (ts : Tags) (d : Bytes) : Res Nat :=
  match ts.lenTag with
  | none => .err .noLenTag d
  | some k =>
    match pop k.size d with
    | none => .err .eof d
    | some (b, d) => if getBE b > maxInt then .err .badLen d else .ok (getBE b) d

mutual
/-- decode.go:60-214 `value`. `lim n` says whether memory for a slice of `n` elements can be allocated (it is always true
except in the theorem on allocations). -/
def decode (lim : Nat → Bool) : (t : Ty) → t.Val → Tags → Bytes → Res t.Val
  | .custom c, prev, _, d => runCustom c.dec prev d
  | .ptr t, prev, ts, d =>
    match t.customDec with
    | some f =>
      match prev with
      | none => .panic
      | some p => (runCustom f p d).map some
    | none =>
      if ts.optional then
        match pop 1 d with
        | none => .err .eof d
        | some (flag, d) =>
          if flag = [0x00] then .ok none d
          else if flag = [0x01] then (decode lim t t.zero ts d).map some
          else .err .badOptional d
      else (decode lim t t.zero ts d).map some
  | .byteArr n, _, _, d =>
    match pop n d with
    | none => .err .eof d
    | some (b, d) => .ok (BArr.copy n b) d
  | .arr n t, prev, _, d =>
    match decLoop (fun p d => decode lim t p {} d) prev.val d with
    | .ok l d => .ok ⟨l.val, by rw [l.property, prev.property]⟩ d
    | .err e d => .err e d
    | .panic => .panic
  | .str, _, ts, d =>
    match readLen ts d with
    | .ok u d =>
      match pop u d with
      | none => .err .eof d
      | some (b, d) => .ok b d
    | .err e d => .err e d
    | .panic => .panic
  | .byteSlice, _, ts, d =>
    match readLen ts d with
    | .ok u d =>
      match pop u d with
      | none => .err .eof d
      | some (b, d) => if lim u then .ok b d else .panic
    | .err e d => .err e d
    | .panic => .panic
  | .slice t, _, ts, d =>
    match readLen ts d with
    | .ok u d =>
      if u > d.length then .err .tooLargeAlloc d
      else if lim u then
        (decLoop (fun p d => decode lim t p {} d) (List.replicate u t.zero) d).map (·.val)
      else .panic
    | .err e d => .err e d
    | .panic => .panic
  | .struct fs, prev, _, d => decodeFields lim fs prev d
  | .bool, _, _, d =>
    match pop 1 d with
    | none => .err .eof d
    | some (b, d) =>
      if b = [0] then .ok false d
      else if b = [1] then .ok true d
      else .err .badBool d
  | .num k, _, _, d =>
    match pop k.size d with
    | none => .err .eof d
    | some (b, d) => .ok (getNum k b) d
  | .unsupported _ _, _, _, d => .err .cannotMarshal d
/-- decode.go:170-185: the struct case of `value` -/
def decodeFields (lim : Nat → Bool) : (fs : Fields) → fs.Val → Bytes → Res fs.Val
  | .nil, _, d => .ok () d
  | .cons tag t fs, prev, d =>
    match fieldTags tag with
    | none => .panic
    | some ts =>
      match decode lim t prev.1 ts d with
      | .ok v d => (decodeFields lim fs prev.2 d).map fun vs => (v, vs)
      | .err e d => .err e d
      | .panic => .panic
end

/-! ## Size -/

/-- size.go:98-111 `sizeNumber` of a type's kind -/
def Ty.numSize : Ty → Option Nat
  | .num k => some k.size
  | _ => none

mutual
/-- size.go:21-96 `valueSize` -/
def valueSize : (t : Ty) → t.Val → Tags → Out Nat
  | .custom c, v, _ => c.gsize v
  | .ptr t, v, ts =>
    match v with
    | none => if ts.optional then .ok 1 else .err .nonOptionalNil
    | some x => do
      let elem ← valueSize t x ts
      return (if ts.optional then 1 else 0) + elem
  | .byteArr n, _, _ => .ok (n * 1)
  | .arr n t, v, _ =>
    match t.numSize with
    | some s => .ok (n * s)
    | none => v.val.foldlM (fun total x => do return total + (← valueSize t x {})) 0
  | .str, v, ts =>
    match ts.lenTag with
    | none => .err .noLenTag
    | some k => .ok (k.size + v.length)
  | .byteSlice, v, ts =>
    match ts.lenTag with
    | none => .err .noLenTag
    | some k => .ok (k.size + v.length * 1)
  | .slice t, v, ts =>
    match ts.lenTag with
    | none => .err .noLenTag
    | some k =>
      match t.numSize with
      | some s => .ok (k.size + v.length * s)
      | none => v.foldlM (fun total x => do return total + (← valueSize t x {})) k.size
  | .struct fs, v, _ => fieldsSize fs v 0
  | .bool, _, _ => .err .cannotMarshal
  | .num k, _, _ => .ok k.size
  | .unsupported _ _, _, _ => .err .cannotMarshal
/-- size.go:73-87: the struct case of `valueSize` -/
def fieldsSize : (fs : Fields) → fs.Val → Nat → Out Nat
  | .nil, _, total => .ok total
  | .cons tag t fs, v, total =>
    match fieldTags tag with
    | none => .panic
    | some ts =>
      match valueSize t v.1 ts with
      | .ok n => fieldsSize fs v.2 (total + n)
      | .err e => .err e
      | .panic => .panic
end

/-! ## Entry points -/

/-- What can be passed as `interface{}`: a pointer (nil or to a value); a nilable non-pointer (slice, map, chan, func); or
something on which `reflect.Value.IsNil` panics (numbers, structs, strings, arrays, bools, the nil interface). -/
inductive Arg where
  | pointer (t : Ty) (v : Option t.Val)
  | nilable (isNil : Bool)
  | plain

/-- encode.go:10-24 `Marshal` -/
def marshalArg (b : Bytes) : Arg → Out Bytes
  | .pointer _ none => .err .invalidUnmarshal
  | .pointer t (some v) => marshal t v b {}
  | .nilable _ => .err .invalidUnmarshal
  | .plain => .panic

/-- encode.go:10-24 `Marshal` of a pointer to `v` -/
def Marshal (b : Bytes) (t : Ty) (v : t.Val) : Out Bytes := marshal t v b {}

/-- No limit on allocations. -/
def noLimit : Nat → Bool := fun _ => true

/-- decode.go:15-20 and 47-58 `Unmarshal` into a variable that holds `prev`: the unread rest stands for `n`, see
`bytesRead`. -/
def Unmarshal (t : Ty) (prev : t.Val) (data : Bytes) : Res t.Val := decode noLimit t prev {} data

/-- decode.go:18 `n = len(data) - len(d.data)` -/
def bytesRead {α} (data : Bytes) : Res α → Nat
  | .ok _ rest => data.length - rest.length
  | .err _ rest => data.length - rest.length
  | .panic => 0

/-- decode.go:47-58 `unmarshal` on arguments that are not pointers to values: `none` if there is nothing to decode. -/
def unmarshalArg (data : Bytes) : (a : Arg) → Res Unit
  | .pointer _ none => .ok () data
  | .pointer t (some prev) => (Unmarshal t prev data).map fun _ => ()
  | .nilable true => .ok () data
  | .nilable false => .err .invalidUnmarshal data
  | .plain => .panic

/-- decode.go:23-32 `UnmarshalFull` -/
def UnmarshalFull (t : Ty) (prev : t.Val) (data : Bytes) : Out t.Val :=
  match Unmarshal t prev data with
  | .ok v rest => if data.length > data.length - rest.length then .err .notFullyRead else .ok v
  | .err e _ => .err e
  | .panic => .panic

/-- size.go:11-19 `Size` of a pointer to `v` -/
def Size (t : Ty) (v : t.Val) : Out Nat := valueSize t v {}

/-- size.go:11-19 `Size` -/
def sizeArg : Arg → Out Nat
  | .pointer _ none => .ok 0
  | .pointer t (some v) => Size t v
  | .nilable true => .ok 0
  | .nilable false => .err .invalidUnmarshal
  | .plain => .panic

end Nimiq.Beserial
