import Verif.Beserial.Model
/-!
# Specification of the beserial format (doc.go:5-13), independent of the encoder

`enc t ts v` is the encoding of `v` at type `t` with field tags `ts`, or `none` if the value has no encoding.
-/
namespace Nimiq.Beserial.Spec

/-- Big-endian base 256 digits. -/
def digits (n x : Nat) : Bytes := (List.range n).map fun i => UInt8.ofNat (x / 256 ^ (n - 1 - i))

/-- Two's complement of a `w` bit number. -/
def twos (w : Nat) (i : Int) : Nat := if 0 ≤ i then i.toNat else (2 ^ w + i).toNat

/-- Numbers are two's-complement and big-endian. -/
def num : (k : NumKind) → k.Val → Bytes
  | .u8, x => digits 1 x.toNat
  | .u16, x => digits 2 x.toNat
  | .u32, x => digits 4 x.toNat
  | .u64, x => digits 8 x.toNat
  | .i8, x => digits 1 (twos 8 x.toInt)
  | .i16, x => digits 2 (twos 16 x.toInt)
  | .i32, x => digits 4 (twos 32 x.toInt)
  | .i64, x => digits 8 (twos 64 x.toInt)

/-- Largest length a tag can express (Go lengths are below 2^63). -/
def maxLen : LenKind → Nat
  | .u8 => 2 ^ 8 - 1 | .u16 => 2 ^ 16 - 1 | .u32 => 2 ^ 32 - 1 | .u64 => 2 ^ 63 - 1

/-- Bytes of a length prefix. -/
def lenBytes : LenKind → Nat
  | .u8 => 1 | .u16 => 2 | .u32 => 4 | .u64 => 8

/-- Bytes of a number. -/
def numBytes : NumKind → Nat
  | .u8 | .i8 => 1
  | .u16 | .i16 => 2
  | .u32 | .i32 => 4
  | .u64 | .i64 => 8

/-- Length prefix; no tag or a too long item has none. -/
def len (ts : Tags) (n : Nat) : Option Bytes :=
  match ts.lenTag with
  | none => none
  | some k => if n ≤ maxLen k then some (digits (lenBytes k) n) else none

@[simp] theorem lenBytes_eq (k : LenKind) : lenBytes k = k.size := by cases k <;> rfl
@[simp] theorem numBytes_eq (k : NumKind) : numBytes k = k.size := by cases k <;> rfl

/-- One after the other. -/
def all {α} (f : α → Option Bytes) : List α → Option Bytes
  | [] => some []
  | x :: xs => do
    let a ← f x
    let b ← all f xs
    return a ++ b

/-- Pointers to types with custom methods are outside the format. -/
def isCustom : Ty → Bool
  | .custom _ => true
  | _ => false

mutual
def enc : (t : Ty) → Tags → t.Val → Option Bytes
  | .num k, _, v => some (num k v)
  | .bool, _, v => some [if v then 1 else 0]
  | .byteArr _, _, v => some v.val
  | .arr _ t, _, v => all (fun x => enc t {} x) v.val
  | .str, ts, v => do return (← len ts v.length) ++ v
  | .byteSlice, ts, v => do return (← len ts v.length) ++ v
  | .slice t, ts, v => do return (← len ts v.length) ++ (← all (fun x => enc t {} x) v)
  | .ptr t, ts, v =>
    if isCustom t then none
    else if ts.optional then
      match v with
      | none => some [0]
      | some x => do return 1 :: (← enc t ts x)
    else
      match v with
      | none => none
      | some x => enc t ts x
  | .struct fs, _, v => encFields fs v
  | .custom c, _, v => c.spec v
  | .unsupported _ _, _, _ => none
def encFields : (fs : Fields) → fs.Val → Option Bytes
  | .nil, _ => some []
  | .cons tag t fs, v => do
    let ts ← fieldTags tag
    return (← enc t ts v.1) ++ (← encFields fs v.2)
end

mutual
/-- A lower bound on the length of encodings. -/
def minSize : Ty → Tags → Nat
  | .num k, _ => numBytes k
  | .bool, _ => 1
  | .byteArr n, _ => n
  | .arr n t, _ => n * minSize t {}
  | .str, ts | .byteSlice, ts | .slice _, ts => match ts.lenTag with | none => 0 | some k => lenBytes k
  | .ptr t, ts => if ts.optional then 1 else minSize t ts
  | .struct fs, _ => minFields fs
  | .custom c, _ => c.min
  | .unsupported _ _, _ => 0
def minFields : Fields → Nat
  | .nil => 0
  | .cons tag t fs => (match fieldTags tag with | none => 0 | some ts => minSize t ts) + minFields fs
end

/-- A custom type implements its specification: the encoder appends the specified encoding, the decoder reads it back
from in front of any data and reads nothing else; it never panics. -/
structure Lawful (c : Codec) : Prop where
  enc : ∀ a bs b, c.spec a = some bs → c.enc a b = .ok (b ++ bs)
  dec : ∀ prev a bs rest, c.spec a = some bs → c.dec prev (bs ++ rest) = .ok (bs.length, a)
  canon : ∀ prev a n d, c.dec prev d = .ok (n, a) → n ≤ d.length ∧ c.spec a = some (d.take n)
  total : ∀ prev d, c.dec prev d ≠ .panic
  min : ∀ a bs, c.spec a = some bs → c.min ≤ bs.length

mutual
/-- Types for which decoding inverts encoding: custom types are lawful and not behind
pointers, and elements of slices take at least one byte
(slices of zero-size elements fail the decoder's allocation check). -/
def Good : Ty → Prop
  | .arr _ t => Good t
  | .slice t => Good t ∧ 1 ≤ minSize t {}
  | .ptr t => Good t ∧ isCustom t = false
  | .struct fs => GoodFields fs
  | .custom c => Lawful c
  | _ => True
def GoodFields : Fields → Prop
  | .nil => True
  | .cons _ t fs => Good t ∧ GoodFields fs
end

/-! ## Which values can be encoded at all (lengths apart) -/

mutual
/-- Every slice and string has a length tag, every nil pointer is optional, nothing has an unsupported type. -/
def Encodable : (t : Ty) → Tags → t.Val → Prop
  | .arr _ t, _, v => ∀ x ∈ v.val, Encodable t {} x
  | .str, ts, _ | .byteSlice, ts, _ => ts.lenTag ≠ none
  | .slice t, ts, v => ts.lenTag ≠ none ∧ ∀ x ∈ v, Encodable t {} x
  | .ptr t, ts, v =>
    match v with
    | none => ts.optional = true
    | some x => Encodable t ts x
  | .struct fs, _, v => EncodableFields fs v
  | .custom c, _, v => (c.spec v).isSome
  | .unsupported _ _, _, _ => False
  | .num _, _, _ | .bool, _, _ | .byteArr _, _, _ => True
def EncodableFields : (fs : Fields) → fs.Val → Prop
  | .nil, _ => True
  | .cons tag t fs, v => Encodable t ((fieldTags tag).getD {}) v.1 ∧ EncodableFields fs v.2
end

mutual
/-- Every slice and string fits its length tag. -/
def Fits : (t : Ty) → Tags → t.Val → Prop
  | .arr _ t, _, v => ∀ x ∈ v.val, Fits t {} x
  | .str, ts, v | .byteSlice, ts, v => ∀ k, ts.lenTag = some k → v.length ≤ maxLen k
  | .slice t, ts, v => (∀ k, ts.lenTag = some k → v.length ≤ maxLen k) ∧ ∀ x ∈ v, Fits t {} x
  | .ptr t, ts, v =>
    match v with
    | none => True
    | some x => Fits t ts x
  | .struct fs, _, v => FitsFields fs v
  | _, _, _ => True
def FitsFields : (fs : Fields) → fs.Val → Prop
  | .nil, _ => True
  | .cons tag t fs, v => Fits t ((fieldTags tag).getD {}) v.1 ∧ FitsFields fs v.2
end

mutual
/-- Whatever a pointer in the value points to can be encoded. -/
def TargetsOk : (t : Ty) → Tags → t.Val → Prop
  | .arr _ t, _, v => ∀ x ∈ v.val, TargetsOk t {} x
  | .slice t, _, v => ∀ x ∈ v, TargetsOk t {} x
  | .ptr t, ts, v =>
    match v with
    | none => True
    | some x => Encodable t ts x ∧ TargetsOk t ts x
  | .struct fs, _, v => TargetsOkFields fs v
  | _, _, _ => True
def TargetsOkFields : (fs : Fields) → fs.Val → Prop
  | .nil, _ => True
  | .cons tag t fs, v => TargetsOk t ((fieldTags tag).getD {}) v.1 ∧ TargetsOkFields fs v.2
end

mutual
/-- No pointer types. -/
def PtrFree : Ty → Prop
  | .arr _ t | .slice t => PtrFree t
  | .ptr _ => False
  | .struct fs => PtrFreeFields fs
  | _ => True
def PtrFreeFields : Fields → Prop
  | .nil => True
  | .cons _ t fs => PtrFree t ∧ PtrFreeFields fs
end

mutual
/-- All struct tags parse; custom encoders append their specified encoding or report an error. -/
def Wf : Ty → Prop
  | .arr _ t | .slice t => Wf t
  | .ptr t => Wf t ∧ isCustom t = false
  | .struct fs => WfFields fs
  | .custom c => (∀ a bs b, c.spec a = some bs → c.enc a b = .ok (b ++ bs)) ∧
      ∀ a b, c.spec a = none → ∃ e, c.enc a b = .err e
  | _ => True
def WfFields : Fields → Prop
  | .nil => True
  | .cons tag t fs => fieldTags tag ≠ none ∧ Wf t ∧ WfFields fs
end

mutual
/-- All struct tags parse; custom decoders do not panic and read no more than there is; no pointers to custom types. -/
def Safe : Ty → Prop
  | .arr _ t | .slice t => Safe t
  | .ptr t => Safe t ∧ isCustom t = false
  | .struct fs => SafeFields fs
  | .custom c => ∀ prev d, c.dec prev d ≠ .panic ∧ ∀ n a, c.dec prev d = .ok (n, a) → n ≤ d.length
  | _ => True
def SafeFields : Fields → Prop
  | .nil => True
  | .cons tag t fs => fieldTags tag ≠ none ∧ Safe t ∧ SafeFields fs
end

mutual
/-- Custom types are not behind pointers, and the generic size of a custom type is that of its encoding. -/
def SizeOk : Ty → Prop
  | .arr _ t | .slice t => SizeOk t
  | .ptr t => SizeOk t ∧ isCustom t = false
  | .struct fs => SizeOkFields fs
  | .custom c => ∀ a n b, c.gsize a = .ok n → ∃ bs, bs.length = n ∧ c.enc a b = .ok (b ++ bs)
  | _ => True
def SizeOkFields : Fields → Prop
  | .nil => True
  | .cons _ t fs => SizeOk t ∧ SizeOkFields fs
end

mutual
/-- Neither bools nor custom types. -/
def Plain : Ty → Prop
  | .arr _ t | .slice t | .ptr t => Plain t
  | .struct fs => PlainFields fs
  | .custom _ | .bool => False
  | _ => True
def PlainFields : Fields → Prop
  | .nil => True
  | .cons _ t fs => Plain t ∧ PlainFields fs
end

/-- `"optional"` repeated `n + 1` times, with commas in between. -/
def optionals : Nat → List Char
  | 0 => ['o', 'p', 't', 'i', 'o', 'n', 'a', 'l']
  | n + 1 => ['o', 'p', 't', 'i', 'o', 'n', 'a', 'l', ','] ++ optionals n

/-- `len_tag=uintN` -/
def lenTagText : LenKind → List Char
  | .u8 => ['l', 'e', 'n', '_', 't', 'a', 'g', '=', 'u', 'i', 'n', 't', '8']
  | .u16 => ['l', 'e', 'n', '_', 't', 'a', 'g', '=', 'u', 'i', 'n', 't', '1', '6']
  | .u32 => ['l', 'e', 'n', '_', 't', 'a', 'g', '=', 'u', 'i', 'n', 't', '3', '2']
  | .u64 => ['l', 'e', 'n', '_', 't', 'a', 'g', '=', 'u', 'i', 'n', 't', '6', '4']

end Nimiq.Beserial.Spec
