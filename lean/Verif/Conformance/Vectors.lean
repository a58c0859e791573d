import Verif.Conformance.Crypto
import Verif.Address.Model
import Verif.Genesis.Model
/-!
# The Go unit tests and embedded files of /repo, run on the model

Each entry of `vectors` is an assertion of a Go test file, evaluated on the model (not proved: run by `tools/conform.sh`,
output in /verif/conformance.txt).  A `false` would mean that the model differs from the code on that input.
-/
namespace Nimiq.Conf
open Nimiq Nimiq.Wire Nimiq.Accounts Nimiq.Genesis Nimiq.Beserial

def ascii (s : String) : Bytes := s.toUTF8.toList

/-! address/address_test.go -/
def addrRaw : Bytes := unhex "21a934fe3d6a68bdb64447c571c88c19e39fb685"
def addrStr : String := "NQ19 46LK 9YHV D9LB TDJ4 8Y2P 3J4C 37HR YDL5"
def dec (s : String) : Except Address.AErr Bytes := Address.decode (ascii s)
def isErr (e : Address.AErr) : Except Address.AErr Bytes → Bool
  | .ok _ => false
  | .error e' => e = e'
def isDec : Except Address.AErr Bytes → Bool
  | .ok b => b == addrRaw
  | .error _ => false
def addressVectors : List (String × Bool) := [
  ("address NoSpaces", isDec (dec "NQ1946LK9YHVD9LBTDJ48Y2P3J4C37HRYDL5")),
  ("address Normal", isDec (dec addrStr)),
  ("address ErrChecksum", isErr .checksum (dec "NQ20 46LK 9YHV D9LB TDJ4 8Y2P 3J4C 37HR YDL5")),
  ("address ErrInvalidCountryCode", isErr .countryCode (dec "LD20 46LK 9YHV D9LB TDJ4 8Y2P 3J4C 37HR YDL5")),
  ("address ErrInvalidCharacter", isErr .character (dec "NQ20 46LK 9YHV D9LB .... 8Y2P 3J4C 37HR YDL5")),
  ("address TooShort", isErr .length (dec "NQ20 46LK 9YHV D9LB IIII 8Y2P 3J4C 37HR YDL")),
  ("address TooLong", isErr .length (dec "NQ20 46LK 9YHV D9LB IIII 8Y2P 3J4C 37HR YDL5 A")),
  ("address Empty", isErr .length (dec "                                            ")),
  ("address CyrillicCharacter", isErr .character (dec "NQ20 \u0410\u0410B 9YHV D9LB IIII 8Y2P 3J4C 37HR YDL")),
  ("address Encode", Address.encode addrRaw == ascii addrStr)]

/-! policy/policy_test.go: one cache, in the order of the test -/
def policyRun (cache : List UInt64) : List (UInt32 × UInt64) → List (String × Bool)
  | [] => []
  | (h, r) :: rest => match Policy.blockReward cache h with
    | .ok (r', cache') => (s!"policy BlockReward({h}) = {r'}", r == r') :: policyRun cache' rest
    | _ => [("policy failed", false)]
def policyVectors (_ : Unit) : List (String × Bool) := policyRun Policy.initCache
  [(1, 440597534), (2, 440597429), (3, 440597324), (1000, 440492605), (4999, 440072823), (5000, 440072718),
   (5001, 440072613), (5002, 440072508), (100000, 430217207), (10000000, 40607225), (48692959, 4001), (48692960, 4000),
   (52888984, 4000), (52888985, 0)]

/-! tree/node_test.go, store_test.go, tree_test.go -/
def leafNibs : Tree.Nibbles :=
  ([0x0, 0xf, 0xe, 0x8, 0x3, 0x2, 0x5, 0x8, 0x1, 0xb, 0xf, 0x6, 0xa, 0x0, 0x8, 0x9, 0x2, 0x4, 0x1, 0x2,
    0xa, 0xc, 0xf, 0xb, 0x9, 0x6, 0x5, 0x1, 0xb, 0x4, 0x5, 0x1, 0xc, 0x5, 0x0, 0x9, 0x8, 0x3, 0x1, 0xd] : Bytes).map Tree.toNib
def leafValue : Bytes := unhex "0000000005dbf2a547"
def keyStr (k : Bytes) : Option String := match Tree.hexBytes (Tree.keyToNibbles (BArr.copy 20 k).val) with
  | .ok b => some (String.ofList (b.map fun c => Char.ofNat c.toNat))
  | _ => none
def blobOf (v : UInt64) : Bytes := match WrapAccount.enc (some (.basic ⟨v⟩)) [] with
  | .ok b => b
  | _ => []
def adr (l : Bytes) : Addr := BArr.copy 20 l
inductive TreeOp where
  | put (k : Addr) (v : Bytes)
  | hash (h : String)
def treeRun : List TreeOp → Tree.World → List Bool
  | [], _ => []
  | .put k v :: rest, w => match Tree.putEntry blakeH k v w with
    | some (ch, w') => ch :: treeRun rest w'
    | none => [false]
  | .hash h :: rest, w => match Tree.hash blakeH w with
    | some (x, w') => (hex x.val == h) :: treeRun rest w'
    | none => [false]
def k1 := adr []
def k2 := adr [0x10]
def k3 := adr [0x12]
def emptyHash := "ab29e6dc16755d0071eba349ebda225d15e4f910cb474549c47e95cb85ecc4d6"
def fullHash := "c8a459ea666e3b027dbef89c00e7600d22c0a0c7ff8051a5e9687026d027c0f5"
def reset : List TreeOp := [.put k1 [], .put k2 [], .put k3 [], .hash emptyHash]
def treeVectors : List (String × Bool) := [
  ("tree Leaf MarshalTo", hex (Tree.leafBytes leafNibs leafValue) ==
    "ff28306665383332353831626636613038393234313261636662393635316234353163353039383331640000000005dbf2a547"),
  ("tree Leaf Hash", hex (Tree.objHash blakeH (.leaf leafNibs leafValue)).val ==
    "acd4a1f45c7f608ccc02aef3c7b0dbc7226b0e9c365fa21771df4ce9f44780e6"),
  ("tree Nibbles String", Tree.hexBytes [4, 15, 3, 0, 2] == .ok (ascii "4f302")),
  ("tree KeyToNibbles 1", keyStr [] == some "0000000000000000000000000000000000000000"),
  ("tree KeyToNibbles 2", keyStr [0x0c] == some "0c00000000000000000000000000000000000000"),
  ("tree KeyToNibbles 3", keyStr [0x12, 0x03, 0x30] == some "1203300000000000000000000000000000000000"),
  ("tree Empty", treeRun [.hash emptyHash] Tree.newWorld == [true]),
  ("tree PutAndGet", treeRun [.put k1 (blobOf 5), .hash "4644a8c8bc0b333230751e6fbcd0b49f4ebc7bb682df3a97e091115d0fe26c05",
    .put k2 (blobOf 55), .hash "f6fc7ecf89d94fa4e91a19805d36976ccd09633a95ff201981167e8c68c141dd",
    .put k3 (blobOf 55555555), .hash fullHash] Tree.newWorld == List.replicate 6 true),
  ("tree InsertionOrderInvariance", treeRun ([.hash emptyHash,
    .put k1 (blobOf 5), .put k2 (blobOf 55), .put k3 (blobOf 55555555), .hash fullHash] ++ reset ++
    [.put k1 (blobOf 5), .put k3 (blobOf 55555555), .put k2 (blobOf 55), .hash fullHash] ++ reset ++
    [.put k2 (blobOf 55), .put k1 (blobOf 5), .put k3 (blobOf 55555555), .hash fullHash] ++ reset) Tree.newWorld
      == List.replicate 25 true)]

/-! beserial/encode_test.go, decode_test.go, size_test.go -/
def okBytes (o : Out Bytes) (s : String) : Bool := match o with
  | .ok b => hex b == s
  | _ => false
/-- Encodes to the given bytes, and UnmarshalFull of these bytes re-encodes to them. -/
def both (t : Ty) (v : t.Val) (s : String) : Bool :=
  okBytes (Marshal [] t v) s && (match UnmarshalFull t t.zero (unhex s) with
    | .ok v' => okBytes (Marshal [] t v') s
    | _ => false)
def numsTy (withBool : Bool) : Ty := .struct (.cons none (.num .u64) (.cons none (.num .u32) (.cons none (.num .u16)
  (.cons none (.num .u8) (.cons none (.num .i64) (.cons none (.num .i32) (.cons none (.num .i16) (.cons none (.num .i8)
    (if withBool then .cons none .bool .nil else .nil)))))))))
def sizeIs (o : Out Nat) (n : Nat) : Bool := match o with
  | .ok m => m == n
  | _ => false
def optTy : Ty := .struct (.cons none (.num .u8) (.cons tagOptional (.ptr (.num .u8)) (.cons none (.num .u8) .nil)))
def abcTy : Ty := .struct (.cons none (.num .u8) (.cons none (.num .u8) (.cons none (.num .u8) .nil)))
/-- encode_test.go `customMarshalTest`; decode_test.go `customUnmarshalTest` returns 4 -/
def customTest (n : Nat) : Codec := ⟨Unit, (), fun _ _ => .ok (n, ()), fun _ b => .ok (b ++ [0x99, 0xAA]), fun _ => .ok 0,
  fun _ => some [0x99, 0xAA], 0, ⟨0, 1, fun _ => 0, 0, 0, fun _ => 0, 0, 0⟩⟩
def str16 := "000102030405060708090a0b0c0d0e0f"
def beserialVectors : List (String × Bool) := [
  ("beserial Bool false", both .bool false "00"),
  ("beserial Bool true", both .bool true "01"),
  ("beserial Bool invalid", match UnmarshalFull .bool false [2] with | .err .badBool => true | _ => false),
  ("beserial Uint8", both (.num .u8) (0xCD : UInt8) "cd"),
  ("beserial Struct", both (numsTy true) (show (numsTy true).Val from ((0xC0C0404009090303 : UInt64), (0x7070D5D5 : UInt32), (0x2349 : UInt16),
      (0x20 : UInt8), (-0x2222333344445555 : Int64), (-0x4FEFEFEF : Int32), (-2020 : Int16), (-128 : Int8), true, ()))
    "c0c04040090903037070d5d5234920ddddccccbbbbaaabb0101011f81c8001"),
  ("beserial ByteSlice", both (.struct (.cons tagU16 .byteSlice .nil)) (unhex str16, ()) ("0010" ++ str16)),
  ("beserial Slice", both (.struct (.cons tagU16 (.slice (.num .u16)) .nil)) (([0x1234, 0x5678] : List UInt16), ()) "000212345678"),
  ("beserial ByteArray", both (.byteArr 16) (BArr.copy 16 (unhex str16)) str16),
  ("beserial Array", both (.arr 2 (.num .u16)) ⟨([0x1234, 0x5678] : List UInt16), rfl⟩ "12345678"),
  ("beserial String", both (.struct (.cons tagU8 .str .nil)) (ascii "ya yeet", ()) "0779612079656574"),
  ("beserial Optional_None", both optTy ((0x10 : UInt8), none, (0x30 : UInt8), ()) "100030"),
  ("beserial Optional_Some", both optTy ((0x10 : UInt8), some (0 : UInt8), (0x30 : UInt8), ()) "10010030"),
  ("beserial Custom enc", okBytes (Marshal [] (.struct (.cons none (.num .u8) (.cons none (.custom (customTest 2))
    (.cons none (.num .u8) .nil)))) ((0x11 : UInt8), (), (0x22 : UInt8), ())) "1199aa22"),
  ("beserial Custom dec", match UnmarshalFull (.custom (customTest 4)) () [0, 0, 0, 0] with | .ok _ => true | _ => false),
  ("beserial Size Uint8", sizeIs (Size (.num .u8) (0 : UInt8)) 1),
  ("beserial Size Struct", sizeIs (Size (numsTy false) (numsTy false).zero) 30),
  ("beserial Size NumberSlice", sizeIs (Size (.struct (.cons tagU16 (.slice (.num .u16)) .nil)) (List.replicate 16 (0 : UInt16), ())) 34),
  ("beserial Size Slice", sizeIs (Size (.struct (.cons tagU16 (.slice abcTy) .nil)) (List.replicate 16 abcTy.zero, ())) 50),
  ("beserial Size NumberArray", sizeIs (Size (.arr 16 (.num .u16)) (Ty.zero (.arr 16 (.num .u16)))) 32),
  ("beserial Size Array", sizeIs (Size (.struct (.cons none (.arr 16 abcTy) .nil)) (Ty.zero (.struct (.cons none (.arr 16 abcTy) .nil)))) 48),
  ("beserial Size String", sizeIs (Size (.struct (.cons tagU8 .str .nil)) (ascii "ya yeet", ())) 8),
  ("beserial Size Optional_None", sizeIs (Size optTy ((0x10 : UInt8), none, (0x30 : UInt8), ())) 3),
  ("beserial Size Optional_Some", sizeIs (Size optTy ((0x10 : UInt8), some (0 : UInt8), (0x30 : UInt8), ())) 4)]

/-! wallet/basic_test.go, with Ed25519 -/
def ed25519 : SigScheme := ⟨fun k m => BArr.copy 64 (Ed.sign k.val m), fun k m s => Ed.verify k.val m s.val⟩
def testWallet : Wallet := newWallet (BArr.copy 64
  (Ed.keyFromSeed (unhex "48342cab09b56efef824344b89323cb775b3b7c21fec9116f0dfda83d193b50b")))
def txBytes : Out Tx → Out Bytes
  | .ok t => WrapTx.enc (some t) []
  | .err e => .err e
  | .panic => .panic
def mapOut {α β} (f : α → β) : Out α → Out β
  | .ok a => .ok (f a)
  | .err e => .err e
  | .panic => .panic
def walletVectors (_ : Unit) : List (String × Bool) := [
  ("wallet SignBasicTx", okBytes (txBytes (mapOut Tx.basic (testWallet.signBasicTx ed25519 blakeH
      { senderPubKey := testWallet.publicKey, recipient := BArr.zero 20, value := 420, fee := 1337, validityStartHeight := 99,
        networkID := 42, signature := BArr.zero 64 })))
    "002a39f666099582d659112b8c196630958095805f6b1016400030ed0b182064d1000000000000000000000000000000000000000000000000000001a40000000000000539000000632a6a6d2fad4a136a9409aeb935c62af7a356e86435829d94f8a97ddc5fc5e5e202ffedfdf7dc438cc48dd5883edc9b07a2971cafaca520cb34f00a3eb4834be60f"),
  ("wallet SignExtendedTx", okBytes (txBytes (mapOut Tx.extended (testWallet.signExtendedTx ed25519 blakeH
      { sender := (testWallet.getAddress blakeH).1, senderType := 0, recipient := BArr.zero 20, recipientType := 0, value := 1337,
        fee := 420, validityStartHeight := 99, flags := 0, data := [], networkID := 42, proof := [] })))
    "010000a1f5245a31b48f1f0e4839c2b1b260a89317e85500000000000000000000000000000000000000000000000000000000053900000000000001a4000000632a0000612a39f666099582d659112b8c196630958095805f6b1016400030ed0b182064d1002cf0150ce3fddd6d3d70de801a5e0744e8b3fc946a4380cc134127015e32b13580accc717c7af05e0334fe7ada1e99920e7dd1e03a45091db3986c08c977fc09")]

/-! accounts/accounts_test.go, with a fixed wallet -/
def env : Env := ⟨blakeH, fun l h => ⟨l.head h, List.head_mem h⟩, fun _ => 0⟩
def createTx (w : Addr) : ExtendedTx :=
  { sender := w, senderType := 0, recipient := BArr.zero 20, recipientType := 1, value := 100, fee := 0,
    validityStartHeight := 1, flags := 1, data := List.replicate 23 0 ++ [1], networkID := 4, proof := [] }
def pruningTest : M Node Unit := do
  let w := (testWallet.getAddress blakeH).1
  Push env ⟨1, BArr.zero 32, some ⟨w, [], []⟩⟩
  Push env ⟨2, BArr.zero 32, some ⟨w, [.extended (createTx w)], []⟩⟩
def accountsVectors (_ : Unit) : List (String × Bool) :=
  [("accounts Pruning", match pruningTest newNode with | (.ok _, _) => true | _ => false)]

/-! genesis/genesis_test.go: `OpenProfile` and `InitAccounts` on the embedded files -/
def profileVector (dir name : String) : IO (List (String × Bool)) := do
  let b ← IO.FS.readBinFile s!"{dir}/genesis/files/{name}.block.bin"
  let a ← IO.FS.readBinFile s!"{dir}/genesis/files/{name}.accounts.bin"
  match openProfile (some ⟨0, "", [], [], BArr.zero 32⟩) (some b.toList) (some a.toList) with
  | .ok p => match p.initAccounts env newNode with
    | (.ok (), _) => return [(s!"genesis {name}: {p.accounts.length} accounts, state hash agrees", true)]
    | _ => return [(s!"genesis {name} InitAccounts", false)]
  | _ => return [(s!"genesis {name} OpenProfile", false)]

def vectors (dir : String) : IO (List (String × Bool)) := do
  return addressVectors ++ treeVectors ++ beserialVectors ++ walletVectors () ++ accountsVectors () ++ policyVectors ()
    ++ (← profileVector dir "test") ++ (← profileVector dir "main")

/-- Prints one line per assertion. -/
def run (dir : String) : IO Unit := do
  let vs ← vectors dir
  for (n, ok) in vs do
    IO.println s!"{if ok then "ok  " else "FAIL"} {n}"
  IO.println s!"{(vs.filter (·.2)).length} of {vs.length} assertions hold"
end Nimiq.Conf
