import Verif.Basic
/-!
# Blake2b-256 (RFC 7693, without key, digest length 32)

The hash function the code uses (golang.org/x/crypto/blake2b, `Sum256` and `New256(nil)`).  Words are natural numbers below
2^64, bytes are natural numbers below 2^8.  Everything else in the model takes the hash function as a parameter; only the facts
about the embedded genesis files need this one.
-/
namespace Nimiq.Blake

/-- RFC 7693 2.1: words have 64 bits. -/
def word : Nat := 2 ^ 64

/-- RFC 7693 2.3: rotation of a word to the right. -/
def rotr (x n : Nat) : Nat := x / 2 ^ n + x % 2 ^ n * 2 ^ (64 - n)

/-- RFC 7693 3.1: the sum of three words. -/
def add (a b x : Nat) : Nat := (a + b + x) % word

/-- RFC 7693 3.1: `v[a] := v[a] + v[b] + x`. -/
def plus (v : List Nat) (a b x : Nat) : List Nat := v.set a (add (v.getD a 0) (v.getD b 0) x)

/-- RFC 7693 3.1: `v[d] := (v[d] ^ v[a]) >>> n`. -/
def turn (v : List Nat) (d a n : Nat) : List Nat := v.set d (rotr (v.getD d 0 ^^^ v.getD a 0) n)

/-- RFC 7693 3.1: the mixing function G on four words of the work vector. -/
def mix (v : List Nat) (a b c d x y : Nat) : List Nat :=
  let v := plus v a b x
  let v := turn v d a 32
  let v := plus v c d 0
  let v := turn v b c 24
  let v := plus v a b y
  let v := turn v d a 16
  let v := plus v c d 0
  turn v b c 63

/-- RFC 7693 3.2: one round, with the message schedule `s`. -/
def round (m v s : List Nat) : List Nat :=
  let w := fun k => m.getD (s.getD k 0) 0
  let v := mix v 0 4 8 12 (w 0) (w 1)
  let v := mix v 1 5 9 13 (w 2) (w 3)
  let v := mix v 2 6 10 14 (w 4) (w 5)
  let v := mix v 3 7 11 15 (w 6) (w 7)
  let v := mix v 0 5 10 15 (w 8) (w 9)
  let v := mix v 1 6 11 12 (w 10) (w 11)
  let v := mix v 2 7 8 13 (w 12) (w 13)
  mix v 3 4 9 14 (w 14) (w 15)

/-- RFC 7693 2.7: the schedules of the twelve rounds (the last two repeat the first two). -/
def sigma : List (List Nat) := [
  [0, 1, 2, 3, 4, 5, 6, 7, 8, 9, 10, 11, 12, 13, 14, 15],
  [14, 10, 4, 8, 9, 15, 13, 6, 1, 12, 0, 2, 11, 7, 5, 3],
  [11, 8, 12, 0, 5, 2, 15, 13, 10, 14, 3, 6, 7, 1, 9, 4],
  [7, 9, 3, 1, 13, 12, 11, 14, 2, 6, 5, 10, 4, 0, 15, 8],
  [9, 0, 5, 7, 2, 4, 10, 15, 14, 1, 11, 12, 6, 8, 3, 13],
  [2, 12, 6, 10, 0, 11, 8, 3, 4, 13, 7, 5, 15, 14, 1, 9],
  [12, 5, 1, 15, 14, 13, 4, 10, 0, 7, 6, 3, 9, 2, 8, 11],
  [13, 11, 7, 14, 12, 1, 3, 9, 5, 0, 15, 4, 8, 6, 2, 10],
  [6, 15, 14, 9, 11, 3, 0, 8, 12, 2, 13, 7, 1, 4, 10, 5],
  [10, 2, 8, 4, 7, 6, 1, 5, 15, 11, 9, 14, 3, 12, 13, 0],
  [0, 1, 2, 3, 4, 5, 6, 7, 8, 9, 10, 11, 12, 13, 14, 15],
  [14, 10, 4, 8, 9, 15, 13, 6, 1, 12, 0, 2, 11, 7, 5, 3]]

/-- RFC 7693 2.6: the initialization vector. -/
def iv : List Nat := [0x6a09e667f3bcc908, 0xbb67ae8584caa73b, 0x3c6ef372fe94f82b, 0xa54ff53a5f1d36f1,
  0x510e527fade682d1, 0x9b05688c2b3e6c1f, 0x1f83d9abfb41bd6b, 0x5be0cd19137e2179]

/-- RFC 7693 3.2: the compression function F; `t` is the number of message bytes so far. -/
def compress (h m : List Nat) (t : Nat) (last : Bool) : List Nat :=
  let v := h ++ iv
  let v := v.set 12 (v.getD 12 0 ^^^ t % word)
  let v := v.set 13 (v.getD 13 0 ^^^ t / word)
  let v := if last then v.set 14 (v.getD 14 0 ^^^ (word - 1)) else v
  let v := sigma.foldl (round m) v
  (List.range 8).map fun i => h.getD i 0 ^^^ v.getD i 0 ^^^ v.getD (i + 8) 0

/-- RFC 7693 2.4: bytes as a word, least significant byte first (missing bytes are zero). -/
def little : List Nat → Nat
  | [] => 0
  | b :: l => b + 256 * little l

/-- RFC 7693 3.3: the sixteen words of a block, padded with zeros. -/
def words (block : List Nat) : List Nat := (List.range 16).map fun i => little ((block.drop (8 * i)).take 8)

/-- RFC 7693 3.3: all blocks but the last have 128 bytes; the last one is not empty, unless the message is. -/
def absorb (h : List Nat) (t : Nat) (msg : List Nat) : List Nat :=
  if msg.length ≤ 128 then compress h (words msg) (t + msg.length) true
  else absorb (compress h (words (msg.take 128)) (t + 128) false) (t + 128) (msg.drop 128)
termination_by msg.length
decreasing_by simp; omega

/-- RFC 7693 3.3: the digest, 32 bytes. -/
def sum256 (msg : List Nat) : List Nat :=
  let h := absorb (iv.set 0 (iv.getD 0 0 ^^^ 0x01010020)) 0 msg
  (List.range 32).map fun i => h.getD (i / 8) 0 / 256 ^ (i % 8) % 256

/-- Blake2b-256 of a byte string. -/
def hash (b : Bytes) : Hash32 := ⟨(sum256 (b.map (·.toNat))).map UInt8.ofNat, by simp [sum256]⟩

end Nimiq.Blake
