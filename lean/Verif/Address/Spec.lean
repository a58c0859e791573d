import Verif.Basic
/-!
# Specification of user friendly addresses

ISO 7064 MOD 97-10 as for IBANs: move the four header characters to the end, read letters as 10…35 (either case), take the
resulting decimal number modulo 97.
-/
namespace Nimiq.Address.Spec

/-- Numeric value of an ASCII digit or letter. -/
def charVal (c : UInt8) : Option Nat :=
  if 48 ≤ c.toNat ∧ c.toNat ≤ 57 then some (c.toNat - 48)         -- '0'..'9'
  else if 65 ≤ c.toNat ∧ c.toNat ≤ 90 then some (c.toNat - 55)    -- 'A'..'Z'
  else if 97 ≤ c.toNat ∧ c.toNat ≤ 122 then some (c.toNat - 87)   -- 'a'..'z'
  else none

/-- Append the decimal representation of `v < 100` to the decimal number `acc`. -/
def push (acc v : Nat) : Nat := if v < 10 then acc * 10 + v else acc * 100 + v

/-- The decimal number written by a sequence of values. -/
def number (vs : List Nat) : Nat := vs.foldl push 0

/-- Header moved to the end. -/
def rearrange (t : Bytes) : Bytes := t.drop 4 ++ t.take 4

/-- Values of all characters, if all are alphanumeric. -/
def values : Bytes → Option (List Nat)
  | [] => some []
  | c :: cs =>
    match charVal c, values cs with
    | some v, some vs => some (v :: vs)
    | _, _ => none

/-- The check value of a 36 character address. -/
def checksum (t : Bytes) : Option Nat := (values (rearrange t)).map fun vs => number vs % 97

/-- The 32 characters of the Nimiq alphabet. -/
def alphabet : List Char := "0123456789ABCDEFGHJKLMNPQRSTUVXY".toList

/-- Big endian value of a byte string. -/
def beValue (bs : Bytes) : Nat := bs.foldl (fun acc b => acc * 256 + b.toNat) 0

/-- The number a base 32 string denotes (each character's index in the alphabet, most significant first);
`none` if a character is not in the alphabet. -/
def base32Value : Nat → Bytes → Option Nat
  | acc, [] => some acc
  | acc, c :: cs =>
    match alphabet.findIdx? (fun a => a.toNat == c.toNat) with
    | some d => base32Value (acc * 32 + d) cs
    | none => none

/-- String literal to bytes. -/
def ascii (s : String) : Bytes := s.toList.map (fun c => UInt8.ofNat c.toNat)

def noSpaces (s : Bytes) : Bytes := s.filter (· ≠ 0x20)

end Nimiq.Address.Spec
