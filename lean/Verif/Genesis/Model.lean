import Verif.Accounts.Model
/-!
# Model of `genesis/genesis.go`, `cmd/gimiq/main.go` and `scripts/export_blocks.py`

Simplifications: files, flags, tar, toml and HTTP are parameters.  A profile's files are byte strings (or missing), the
toml decoder's answer is a parameter; an archive is the list of what `archive.Next`/`ReadAll` yield; the RPC server is a
function from request to response.  Go's `int` counters of blocks and transactions are natural numbers, Python's integers
are integers.  Printing and timing are dropped.
-/
namespace Nimiq.Genesis
open Beserial Wire Accounts

/-! ## genesis.go -/

/-- genesis.go:31-37 `Config` -/
structure Config where
  networkID : UInt8
  name : String
  seedPeers : List String
  seedLists : List String
  genesisHash : Hash32

/-- genesis.go:24-27 `Account`, and genesis.go:99-101 the struct around the list -/
def accountTy : Ty := .struct (.cons none (.byteArr 20) (.cons none (.custom wrapAccount) .nil))
def toEntry (e : accountTy.Val) : Addr × Option Account := (e.1, e.2.1)
def accountListTy : Ty := .struct (.cons tagU16 (.slice accountTy) .nil)

/-- genesis.go:17-21 `Profile` -/
structure Profile where
  config : Config
  block : blockTy.Val
  accounts : List (Addr × Option Account)

/-- genesis.go:78-107 `openProfileFromFS`; `none` stands for a file that cannot be read (or, for the toml file, decoded). -/
def openProfile (config : Option Config) (blockBuf accountsBuf : Option Bytes) : Out Profile := do
  match config with
  | none => .err .fileError
  | some conf =>
    match blockBuf with
    | none => .err .fileError
    | some blockBuf =>
      let block ← UnmarshalFull blockTy blockTy.zero blockBuf
      match accountsBuf with
      | none => .err .fileError
      | some accountsBuf =>
        let l ← UnmarshalFull accountListTy accountListTy.zero accountsBuf
        return ⟨conf, block, l.1.map toEntry⟩

/-- genesis.go:41-43 -/
def putAll (H : Bytes → Hash32) : List (Addr × Option Account) → M Node Unit
  | [] => return ()
  | e :: es => do
    Node.putAccount H e.1 e.2
    putAll H es

/-- genesis.go:40-52 `InitAccounts` with the block's fields that `Push` and the comparison use -/
def initAccounts (E : Env) (accounts : List (Addr × Option Account)) (block : Block) : M Node Unit := do
  putAll E.H accounts
  Push E block
  let hash ← Node.hash E.H
  if hash ≠ block.accountsHash then M.throw .hashMismatch
  else return ()

/-- genesis.go:40-52 `Profile.InitAccounts`; a block with a nil transaction panics (no decoded block has one) -/
def Profile.initAccounts (E : Env) (p : Profile) : M Node Unit :=
  match Block.ofVal p.block with
  | none => M.panic
  | some block => Genesis.initAccounts E p.accounts block

/-! ## main.go -/

/-- `if err != nil { panic(…) }` -/
def must {σ α : Type} (x : M σ α) : M σ α := fun s =>
  match x s with
  | (.ok a, s) => (.ok a, s)
  | (.err _, s) => (.panic, s)
  | (.panic, s) => (.panic, s)

/-- What a `tar.Reader` yields: for every entry its content (`none`: `ReadAll` fails), then `io.EOF` or another error,
which `Next` repeats for ever. -/
structure Archive where
  entries : List (Option Bytes)
  clean : Bool

/-- main.go:71-82: one decoded block is pushed and checked -/
def replayBlock (E : Env) (block : Block) : M Node Nat := do
  must (Push E block)
  let hash ← Node.hash E.H
  if block.accountsHash ≠ hash then M.panic
  else
    match block.body with
    | none => M.panic
    | some body => return body.txs.length

/-- main.go:56-83: the loop, with the counters of blocks and transactions -/
def replayLoop (E : Env) (clean : Bool) : List (Option Bytes) → Nat → Nat → M Node (Nat × Nat)
  | [], blocks, txs => if clean then return (blocks, txs) else M.panic
  | none :: _, _, _ => M.panic
  | some buf :: rest, blocks, txs => do
    let v ← must (M.lift (UnmarshalFull blockTy blockTy.zero buf))
    match Block.ofVal v with
    | none => M.panic
    | some block =>
      let k ← replayBlock E block
      replayLoop E clean rest (blocks + 1) (txs + k)

/-- main.go:40-86: the result is what is printed.  main.go:55: the first `archive.Next()` is called for its effect only. -/
def gimiq (E : Env) (config : Option Config) (blockBuf accountsBuf : Option Bytes) (archive : Archive) :
    M Node (Nat × Nat) := do
  let profile ← must (M.lift (openProfile config blockBuf accountsBuf))
  must (profile.initAccounts E)
  replayLoop E archive.clean (archive.entries.drop 1) 0 0

/-! ## export_blocks.py -/

/-- The RPC server: the answer to a batch of block numbers, as pairs of id and block; `none` if the request fails or a
result is not hex text. -/
abbrev Server := List Int → Option (List (Int × Bytes))

/-- `range(start, stop)` -/
def pyRange (start stop : Int) : List Int := (List.range (stop - start).toNat).map fun i : Nat => start + (i : Int)

/-- export_blocks.py:48-74: the loop; the result lists the entries of the tar file.  export_blocks.py:68 sorts a copy of
the response and drops it. -/
def exportLoop (server : Server) (batch last start : Int) : Option (List (Int × Bytes)) :=
  let stop := min (start + batch) last
  if _h : pyRange start stop = [] then some []
  else
    match server (pyRange start stop) with
    | none => none
    | some body => (exportLoop server batch last stop).map (body ++ ·)
termination_by (last - start).toNat
decreasing_by
  have : (stop - start).toNat ≠ 0 := by
    intro h0; apply _h; simp [pyRange, h0]
  omega

/-- The tar file of a whole run, as the Go reader sees it. -/
def archiveOf (entries : List (Int × Bytes)) : Archive := ⟨entries.map fun e => some e.2, true⟩

end Nimiq.Genesis
