import Verif.Basic
/-!
# Model of `address/address.go`
-/
namespace Nimiq.Address

/-- address.go:220-226: the package's errors; `badBase32` is Go's `base32.CorruptInputError`;
`goPanic` is not an error value but a run-time panic (slice bounds). -/
inductive AErr where
  | countryCode | length | checksum | character | badBase32 | goPanic
  deriving DecidableEq, Repr

/-- address.go:22 the alphabet "0123456789ABCDEFGHJKLMNPQRSTUVXY" as ASCII codes. -/
def alphabet : List UInt8 :=
  [0x30,0x31,0x32,0x33,0x34,0x35,0x36,0x37,0x38,0x39,
   0x41,0x42,0x43,0x44,0x45,0x46,0x47,0x48,0x4A,0x4B,0x4C,0x4D,0x4E,0x50,0x51,0x52,0x53,0x54,0x55,0x56,0x58,0x59]

/-- encoding/base32: digit to character (`enc.encode[n&31]`). -/
def digitChar (n : Nat) : UInt8 := alphabet.getD (n % 32) 0

/-- encoding/base32: character to digit (`enc.decodeMap[c]`, `none` for 0xFF). -/
def charDigit (c : UInt8) : Option Nat :=
  let i := alphabet.findIdx (· == c)
  if i < 32 then some i else none

/-- encoding/base32 `Encode`: each 5 byte group gives 8 characters, big endian.  (The library's handling of a
trailing partial group with padding is left out: the package only encodes 20 byte arrays.) -/
def base32Encode : Bytes → Bytes
  | a :: b :: c :: d :: e :: rest =>
    [ digitChar (a.toNat / 8),
      digitChar (a.toNat % 8 * 4 + b.toNat / 64),
      digitChar (b.toNat / 2 % 32),
      digitChar (b.toNat % 2 * 16 + c.toNat / 16),
      digitChar (c.toNat % 16 * 2 + d.toNat / 128),
      digitChar (d.toNat / 4 % 32),
      digitChar (d.toNat % 4 * 8 + e.toNat / 32),
      digitChar (e.toNat % 32) ] ++ base32Encode rest
  | _ => []

/-- encoding/base32 `Decode` of whole 8 character groups.  (Padding and line breaks, which the library treats
specially, cannot occur here: `addressCheck` has rejected every non-alphanumeric character before; bytes already
written to the destination when a later group is corrupt are dropped.) -/
def base32Decode : Bytes → Option Bytes
  | [] => some []
  | c0 :: c1 :: c2 :: c3 :: c4 :: c5 :: c6 :: c7 :: rest => do
    let d0 ← charDigit c0
    let d1 ← charDigit c1
    let d2 ← charDigit c2
    let d3 ← charDigit c3
    let d4 ← charDigit c4
    let d5 ← charDigit c5
    let d6 ← charDigit c6
    let d7 ← charDigit c7
    let tail ← base32Decode rest
    pure ([ UInt8.ofNat (d0 * 8 + d1 / 4),
            UInt8.ofNat (d1 % 4 * 64 + d2 * 2 + d3 / 16),
            UInt8.ofNat (d3 % 16 * 16 + d4 / 2),
            UInt8.ofNat (d4 % 2 * 128 + d5 * 4 + d6 / 8),
            UInt8.ofNat (d6 % 8 * 32 + d7) ] ++ tail)
  | _ => none

/-- address.go:91-123 `truncateWhitespace`: `room` is `len(compactRemainder)`, `out` what has been written. -/
def truncateLoop : Bytes → Nat → Bytes → Except AErr Bytes
  | [], room, out => if room ≠ 0 then .error .length else .ok out
  | c :: rest, room, out =>
    if room = 0 then .error .length
    else if c ≠ 0x20 then truncateLoop rest (room - 1) (out ++ [c])
    else truncateLoop rest room out

def truncateWhitespace (encoded : Bytes) : Except AErr Bytes := truncateLoop encoded 36 []

/-- strconv.FormatUint(n, 10) -/
def formatUint (n : Nat) : Bytes :=
  if n < 10 then [UInt8.ofNat (0x30 + n)]
  else formatUint (n / 10) ++ [UInt8.ofNat (0x30 + n % 10)]

def isDigit (c : UInt8) : Bool := 0x30 ≤ c && c ≤ 0x39

/-- strconv.ParseUint(s, 10, 64) with the error ignored: 0 on a syntax error, 2^64-1 on overflow. -/
def parseUint (s : Bytes) : Nat :=
  if s.all isDigit then min (s.foldl (fun acc c => acc * 10 + (c.toNat - 0x30)) 0) (2^64 - 1) else 0

/-- address.go:132-164 `nextChars`: what one character appends to `sumBuffer`. -/
def nextChar (char : UInt8) : Except AErr Bytes :=
  if char > 0x60 ∧ char ≤ 0x7A then
    let char := char - 0x20
    .ok (formatUint (char - 0x37).toNat)
  else if char > 0x40 ∧ char ≤ 0x5A then
    .ok (formatUint (char - 0x37).toNat)
  else if char ≥ 0x30 ∧ char ≤ 0x39 then
    .ok [char]
  else .error .character

/-- address.go:132-164 `nextChars` over a slice, appending to `sumBuffer`. -/
def nextChars : Bytes → Bytes → Except AErr Bytes
  | [], buf => .ok buf
  | c :: cs, buf =>
    match nextChar c with
    | .error e => .error e
    | .ok d => nextChars cs (buf ++ d)

/-- address.go:184-215, the loop over blocks of six digits: `n` more iterations after this one, i.e.
`n = blockCount - (i + 1)`.  `none`: `sum[offset:stop]` out of range. -/
def checkLoop (sum : Bytes) : Nat → Nat → Bytes → Option UInt8
  | n, i, tmpBuffer =>
    let offset := i * 6
    let stop := if sum.length ≤ offset + 6 then sum.length else offset + 6
    if offset > stop then none
    else
      let block := (sum.take stop).drop offset
      let tmp := tmpBuffer ++ block
      let tmpNum := parseUint tmp % 97
      match n with
      | 0 => some (UInt8.ofNat tmpNum)
      | n+1 => checkLoop sum n (i+1) (formatUint tmpNum)

/-- address.go:127-218 `addressCheck` -/
def addressCheck (userFriendly : Bytes) : Except AErr UInt8 :=
  match nextChars (userFriendly.drop 4) [] with
  | .error e => .error e
  | .ok buf =>
    match nextChars (userFriendly.take 4) buf with
    | .error e => .error e
    | .ok sum =>
      let blockCount := (sum.length + 5) / 6
      match checkLoop sum (blockCount - 1) 0 [] with
      | some c => .ok c
      | none => .error .goPanic

/-- address.go:27-52 `Decode`.  A base32 error keeps a partially written address in Go; here only the error. -/
def decode (encoded : Bytes) : Except AErr Bytes :=
  match truncateWhitespace encoded with
  | .error e => .error e
  | .ok compact =>
    if compact.getD 0 0 ≠ 0x4E ∧ compact.getD 1 0 ≠ 0x51 then .error .countryCode
    else
      match addressCheck compact with
      | .error e => .error e
      | .ok check =>
        if check ≠ 1 then .error .checksum
        else
          match base32Decode (compact.drop 4) with
          | none => .error .badBase32
          | some addr => .ok addr

/-- address.go:77-81: the output loop, `k` groups left. -/
def spaced : Nat → Bytes → Bytes
  | 0, _ => []
  | k+1, cs => 0x20 :: cs.take 4 ++ spaced k (cs.drop 4)

/-- address.go:55-84 `Encode`; `addr` is a 20 byte array. -/
def encode (addr : Bytes) : Bytes :=
  let data := base32Encode addr
  let noSpaces := [0x4E, 0x51, 0x30, 0x30] ++ data
  let check : UInt8 := match addressCheck noSpaces with
    | .ok c => c
    | .error _ => 0
  let check := 98 - check
  [0x4E, 0x51] ++ [0x30 + (check % 100 / 10), 0x30 + check % 10] ++ spaced 8 (noSpaces.drop 4)

end Nimiq.Address
