import Verif.Beserial.Model
/-!
# Memory requested by `Unmarshal`

`alloc` counts the bytes that decode.go requests with `reflect.MakeSlice`, `reflect.New` and `string(b)`, on every path of
the decoder.  It runs beside `decode` and uses its results to know how far the decoder gets.  Sizes are those of amd64.
Not counted: error values, the allocator's rounding.  `work` below counts steps.
-/
namespace Nimiq.Beserial

/-- `n` rounded up to a multiple of `a`. -/
def roundUp (n a : Nat) : Nat := (n + (a - 1)) / a * a

mutual
/-- `unsafe.Sizeof` -/
def Ty.size : Ty → Nat
  | .num k => k.size
  | .bool => 1
  | .str => 16
  | .byteArr n => n
  | .byteSlice => 24
  | .arr n t => n * t.size
  | .slice _ => 24
  | .ptr _ => 8
  | .struct fs => roundUp (fs.size 0) fs.align
  | .custom c => c.mem.size
  | .unsupported _ _ => 16
/-- `unsafe.Alignof` -/
def Ty.align : Ty → Nat
  | .num k => k.size
  | .bool => 1
  | .byteArr _ => 1
  | .arr _ t => t.align
  | .struct fs => fs.align
  | .custom c => c.mem.align
  | .str | .byteSlice | .slice _ | .ptr _ | .unsupported _ _ => 8
/-- The end of the last field of a struct, for fields from offset `off`. -/
def Fields.size : Fields → Nat → Nat
  | .nil, off => off
  | .cons _ t fs, off => fs.size (roundUp off t.align + t.size)
def Fields.align : Fields → Nat
  | .nil => 1
  | .cons _ t fs => max t.align fs.align
end

/-- decode.go:117-121, 164-168: elements are decoded one after the other, up to the first error -/
def allocLoop {α} (f : α → Bytes → Res α) (g : α → Bytes → Nat) : List α → Bytes → Nat
  | [], _ => 0
  | p :: prev, d =>
    g p d + match f p d with
      | .ok _ d => allocLoop f g prev d
      | _ => 0

mutual
/-- The bytes requested by decode.go:60-214 `value`. -/
def alloc : (t : Ty) → t.Val → Tags → Bytes → Nat
  -- decode.go:70-80
  | .custom c, _, _, d => c.mem.alloc d
  | .ptr t, prev, ts, d =>
    match t.customDec with
    | some _ => match prev with
      | none => 0
      | some _ => match t with
        | .custom c => c.mem.alloc d
        | _ => 0
    | none =>
      -- decode.go:85-106: `reflect.New(typ.Elem())`
      if ts.optional then
        match pop 1 d with
        | none => 0
        | some (flag, d) => if flag = [0x01] then t.size + alloc t t.zero ts d else 0
      else t.size + alloc t t.zero ts d
  | .byteArr _, _, _, _ => 0
  | .arr _ t, prev, _, d => allocLoop (fun p d => decode (fun _ => true) t p {} d) (fun p d => alloc t p {} d) prev.val d
  -- decode.go:141-147: `string(b)`, after the length check in `pop`
  | .str, _, ts, d =>
    match readLen ts d with
    | .ok u d => match pop u d with
      | none => 0
      | some _ => u
    | _ => 0
  -- decode.go:148-156: `reflect.MakeSlice`, after the length check in `pop`
  | .byteSlice, _, ts, d =>
    match readLen ts d with
    | .ok u d => match pop u d with
      | none => 0
      | some _ => u
    | _ => 0
  -- decode.go:157-168: `reflect.MakeSlice`, after the comparison with the number of unread bytes
  | .slice t, _, ts, d =>
    match readLen ts d with
    | .ok u d =>
      if u > d.length then 0
      else u * t.size +
        allocLoop (fun p d => decode (fun _ => true) t p {} d) (fun p d => alloc t p {} d) (List.replicate u t.zero) d
    | _ => 0
  | .struct fs, prev, _, d => allocFields fs prev d
  | .bool, _, _, _ => 0
  | .num _, _, _, _ => 0
  | .unsupported _ _, _, _, _ => 0
/-- The bytes requested by decode.go:170-185. -/
def allocFields : (fs : Fields) → fs.Val → Bytes → Nat
  | .nil, _, _ => 0
  | .cons tag t fs, prev, d =>
    match fieldTags tag with
    | none => 0
    | some ts => alloc t prev.1 ts d + match decode (fun _ => true) t prev.1 ts d with
      | .ok _ d => allocFields fs prev.2 d
      | _ => 0
end

/-- The bytes requested by `Unmarshal` into a variable that holds `prev`. -/
def unmarshalAlloc (t : Ty) (prev : t.Val) (data : Bytes) : Nat := alloc t prev {} data

/-! ## Time

`work` counts the calls of `decodeState.value` and the bytes it copies. -/

mutual
/-- The steps of decode.go:60-214 `value`: one for the call itself, one for each byte copied (decode.go:109-116, 141-156),
and the steps of the calls it makes. -/
def work : (t : Ty) → t.Val → Tags → Bytes → Nat
  | .custom c, _, _, d => 1 + c.mem.work d
  | .ptr t, prev, ts, d =>
    match t.customDec with
    | some _ => match prev with
      | none => 1
      | some _ => match t with
        | .custom c => 1 + c.mem.work d
        | _ => 1
    | none =>
      if ts.optional then
        match pop 1 d with
        | none => 1
        | some (flag, d) => if flag = [0x01] then 1 + work t t.zero ts d else 1
      else 1 + work t t.zero ts d
  | .byteArr n, _, _, d =>
    match pop n d with
    | none => 1
    | some _ => 1 + n
  | .arr _ t, prev, _, d =>
    1 + allocLoop (fun p d => decode (fun _ => true) t p {} d) (fun p d => work t p {} d) prev.val d
  | .str, _, ts, d =>
    match readLen ts d with
    | .ok u d => match pop u d with
      | none => 1
      | some _ => 1 + u
    | _ => 1
  | .byteSlice, _, ts, d =>
    match readLen ts d with
    | .ok u d => match pop u d with
      | none => 1
      | some _ => 1 + u
    | _ => 1
  | .slice t, _, ts, d =>
    match readLen ts d with
    | .ok u d =>
      if u > d.length then 1
      else 1 +
        allocLoop (fun p d => decode (fun _ => true) t p {} d) (fun p d => work t p {} d) (List.replicate u t.zero) d
    | _ => 1
  | .struct fs, prev, _, d => 1 + workFields fs prev d
  | .bool, _, _, _ => 1
  | .num _, _, _, _ => 1
  | .unsupported _ _, _, _, _ => 1
/-- The steps of decode.go:170-185. -/
def workFields : (fs : Fields) → fs.Val → Bytes → Nat
  | .nil, _, _ => 0
  | .cons tag t fs, prev, d =>
    match fieldTags tag with
    | none => 0
    | some ts => work t prev.1 ts d + match decode (fun _ => true) t prev.1 ts d with
      | .ok _ d => workFields fs prev.2 d
      | _ => 0
end

/-- The steps of `Unmarshal` into a variable that holds `prev`. -/
def unmarshalWork (t : Ty) (prev : t.Val) (data : Bytes) : Nat := work t prev {} data

end Nimiq.Beserial
