# Formal model of terorie/nimiq-go in Lean 4

(Generated by `tools/design.py` from `tools/DESIGN.in.md`, `tools/how.json`, `tools/status.json` and the sources, so that the
table cannot go stale. The first version, written before the proofs, is in the git history.)

## 1. Method

Go functions become total Lean functions. A Go call has three observable endings, so results are
`Out α = ok a | err e | panic`; stateful code is `σ → Out α × σ`, i.e. an error or a panic keeps the partially updated state.
Fixed byte arrays `[n]byte` are lists of `UInt8` with a proof of their length (`BArr n`), `uint8/16/32/64` are Lean's
wrapping `UInt8/16/32/64`, `int` lengths are `Nat`, Go strings and `[]byte` are `List UInt8`.
Blake2b-256 is a parameter `H : List UInt8 → BArr 32` (the theorems hold for every such function; only C123 fixes it, to
`Blake/Spec.lean`, which follows RFC 7693); Ed25519 is a parameter
structure; where correctness of the scheme is needed it is an explicit hypothesis of the theorem.

Directory `lean/Verif/<Package>/`: `Model.lean` (the code, every definition with the file and the lines it models),
`Spec.lean` (small independent specification), and files with lemmas and the property theorems `C<nn>_...`, each with a
non-vacuity `example` near it. Theorem names:

* no suffix: the property, or a complete clause of it;
* `_partial`: true, but only under a restriction the property does not have (said in the comment);
* `_violated`: the property is false of the code; the theorem shows it, where possible for *every* state/value rather than
  for one witness.

A property the code violates is kept in `properties.jsonl` in the form a user would rely on, with the violation stated, and
has status `partial`. Nothing is `not_applicable`.

## 2. Trusted base

* Lean 4.33's kernel. No `native_decide`, no `bv_decide`, no compiled evaluation in any proof. `decide +kernel` is used for
  finite computations (the emission curve, tables of the address check, the embedded genesis files); these run in the kernel.
* Axioms: `#print axioms` of all property theorems shows subsets of `propext`, `Classical.choice`, `Quot.sound` (Lean's
  own). None of our own. `vcheck` reports `n_trusts_compiler: 0`.
* That the model says what the code says. This was checked by reading (line citations on every definition) and by the
  conformance run: `tools/conform.sh` evaluates the *model's own definitions* on every assertion of the Go unit tests (address,
  tree, beserial, policy, wallet, accounts, genesis) and on both embedded genesis profiles; `conformance.txt` is the output
  (all assertions hold). For that, `Conformance/Crypto.lean` has executable Blake2b, SHA-512 and Ed25519; no theorem depends
  on them. This run is a test, not a proof, and no property rests on it.
* That the specification files say what the English says. They are short: `*/Spec.lean`, `Accounts/ContractSpec.lean` and the
  `Spec` sections at the top of some property files.
* That wrong programs break the theorems: `seeded/LOG.jsonl` records the edits tried (`tools/mutate.py`).

## 3. What is modelled, file by file

| file | modelled | not modelled / simplified |
|------|----------|---------------------------|
| tree/node.go, store.go, store_mem.go, store_overlay.go, tree.go | everything, with a heap of node objects, pointers in the stores, in-place mutation of branches, cached hashes, nested overlays | `Tree/Model.lean` has Go slices of nibbles and values as immutable lists; `Tree/SliceModel.lean` is the same code over slice headers and backing arrays with an arbitrary `append` growth policy, and C93 proves that the two agree (see 4); `String()` methods |
| address/address.go | everything | `encoding/base32` by its contract for 20/32 byte groups |
| policy/policy.go | everything; the mutex protocol as an interleaving machine | the Go memory model: steps between lock operations are atomic |
| beserial/encode.go, decode.go, size.go, tags.go, errors.go | everything over a universe of types (numbers, bool, string, arrays, slices, pointers, structs with tags, interfaces, types with own codecs) | maps, channels, funcs, floats, complex numbers: all are the `unsupported` case; recursive types, arrays of declared byte types and unexported fields are outside `Ty` and have their own model, `Beserial/Rec.lean` and `RecSize.lean` (C138, C146, without custom methods); no type of the repository is one of them |
| wire/*.go | all types, codecs, messages, signatures, compact targets, size methods, flags | `wire/nibbles.go` is modelled by itself (`Wire/Nibbles.lean`, C126); `wire/tx_data.go`: `VestingCreation` is C136, its unexported types are used nowhere |
| accounts/accounts.go | everything but `Revert` (which only panics) | blocks have no nil `Tx` (proved of decoded ones: `decoded_full`), except in `Accounts/Handmade.lean` (C124), which models them; user-defined implementations of `wire.Account` only in `Accounts/Foreign.lean` (C125), user-defined `wire.Tx` only in `Accounts/ForeignTx.lean` (C135); texts of errors only in `Accounts/Texts.lean` (C145) |
| wallet/basic.go | everything but key generation | `crypto/rand` |
| genesis/genesis.go | `OpenProfile…`, `InitAccounts` with the three files as parameters, and the embedded `main` and `test` files as data (C112) | TOML decoding, the file system |
| cmd/gimiq/main.go | the replay loop over an archive given as a list of entries, some unreadable | `archive/tar`, `os`, `flag`, `log`, timing output |
| scripts/export_blocks.py | batching, numbering and writing order | HTTP/JSON-RPC, `tarfile` (the archive is a list); python→Go tar round trip assumed |

Errors are an enumeration; `%w` wrapping and texts are dropped (the `Error` methods are C145), but the data in them that callers can read (types, addresses,
amounts) is kept.

## 4. Points where the reading had to be argued

* **Aliasing of slices in the tree.** `append(node.Prefix, child.Suffix...)` when a branch with one child left is replaced
  writes beyond `len(node.Prefix)` in that branch's own backing array, and `updateHashes` appends to the prefix of a live
  branch. That nobody can observe this is not argued but proved: `Tree/SliceModel.lean` has the slices and their arrays, the
  growth policy of `append` is a parameter, and C93 is the refinement theorem. `PutEntry` keeps the caller's value slice and
  `GetEntry` returns it: C94 says what happens when a caller writes to it. The accounts code marshals into a fresh buffer for
  every put and only decodes what it gets.
* **Aliasing of slices in the codec.** The value model of the codec copies by nature. Whether the Go code does is C120
  (decoding) and C121 (encoding): `Beserial/HeapModel.lean` and `Wire/HeapModel.lean` have the decoders and encoders again
  with slices as references into a heap and Go's `append`, and the theorems say when this refines the value model. Kinds
  whose bytes lie inside the value (arrays, numbers) and strings (copied by the language) are no references there.
* **Floats.** `amountUnlocked` is modelled with correctly rounded 53-bit operations over the rationals (`fl`), one rounding per
  Go operation. A fused multiply-add cannot occur, since the expression has a division followed by a multiplication followed by
  a conversion. `float64 → uint64` beyond `2^64` is left open by the Go specification: parameter `conv`.
* **Map iteration** (the random address in the prune error, `OverlayStore.Flush`): arbitrary choice / arbitrary permutation.
* **Panics inside custom codecs** propagate through the generic codec as in Go.
* **`Size` never calls `SizeBESerial`** (size.go has no such call), hence C32's violations; the methods themselves are C84.
* **`services.go`** starts `iota` at the second constant, so Nano/Light/Full are 2, 4, 8 rather than 1, 2, 4 of the Nimiq
  protocol. Nothing in the repository contradicts it, so it is only noted here.
* **Memory** (C101): `Beserial/AllocModel.lean` counts the requests of the decoders at the sizes of amd64. Error values, the
  allocator's rounding and local variables that escape are not counted.
* **go-toml** maps the keys of the genesis configuration to the struct fields; a configuration is a parameter here.

## 5. Properties

| id | property | status | theorems in lean/Verif/ | how |
|----|----|----|----|----|
@@TABLE@@

## 6. Defects of the code found on the way

Each is a theorem with suffix `_violated` (see MANIFEST.json): `Compress` panics (C10); trees over overlays write through to the
lower store (C12); a zero `OverlayStore` is unusable (C14); `Decode` and trailing spaces (C18), `&&` for `||` in the country code
check (C19); `Size` of bools and custom types (C32); nil pointers swallow errors and bytes in `Marshal` (C33, C34); over-long
slices are encoded with a truncated length (C36); messages that cannot be sent, received or told apart (C41-C44); interlinks are
decoded from the wrong offset (C45); bit sets of 249..255 bits (C46), which make `ComputeRoot` panic (C52, C64); IPv6 addresses lose
their type (C47); peer addresses have no encoding at all (C48); `AsExtendedTx` puts a bare signature where a proof is expected (C72);
tree chunks (C73); value+fee wraps around, so anybody can mint (C55, C57); fees of contract transactions come from nowhere (C55);
failed pushes leave half of the block applied (C56); vesting contracts can be overdrawn and emptied before they are unlocked (C57,
C82); HTLC pre-images are not checked (C61); signatures are not checked (C62); Push panics on decodable blocks (C64); the
sender type 0xFF bypasses the type check (C65); the exporter and the replayer disagree about the archive (C70); the configured
genesis hash is not checked (C79); validity windows, network ids and replays are not checked (C83); `Revert` panics (C86); vesting
releases differ from whole steps (C88); a replay checks neither linkage nor proof of work (C89); check digits 00, 01, 02 have
twins (C92); stored entries share memory with the caller's slices (C94); used variables leak into decoded values (C98);
`GetAddress` races (C100); `PutEntry` interrupted by its store can leave a wrong hash for good, and after an interrupted deletion later puts can panic (C103); `GetAccount` hands out the shared initial
account (C105); `Hash` during a `PutEntry` (C107); signs and exponents of compact targets (C115); hand-assigned wallet keys
(C116); floating point makes nodes disagree (C117); a crash inside `Push` (C118) and what readers see meanwhile (C128); overlays that are given up (C129). See also the
`_violated` theorems of C122, C124, C125 and C127.
