# Formal model of terorie/nimiq-go in Lean 4

(Generated by `tools/design.py` from `tools/DESIGN.in.md`, `tools/how.json`, `tools/status.json` and the sources, so that the
table cannot go stale. The first version, written before the proofs, is in the git history.)

## 1. Method

Go functions become total Lean functions. A Go call has three observable endings, so results are
`Out α = ok a | err e | panic`; stateful code is `σ → Out α × σ`, i.e. an error or a panic keeps the partially updated state.
Fixed byte arrays `[n]byte` are lists of `UInt8` with a proof of their length (`BArr n`), `uint8/16/32/64` are Lean's
wrapping `UInt8/16/32/64`, `int` lengths are `Nat`, Go strings and `[]byte` are `List UInt8`.
Blake2b-256 is a parameter `H : List UInt8 → BArr 32` (the theorems hold for every such function; only C123 fixes it, to
`Blake/Spec.lean`, which follows RFC 7693); Ed25519 is a parameter
structure; where correctness of the scheme is needed it is an explicit hypothesis of the theorem.

Directory `lean/Verif/<Package>/`: `Model.lean` (the code, every definition with the file and the lines it models),
`Spec.lean` (small independent specification), and files with lemmas and the property theorems `C<nn>_...`, each with a
non-vacuity `example` near it. Theorem names:

* no suffix: the property, or a complete clause of it;
* `_partial`: true, but only under a restriction the property does not have (said in the comment);
* `_violated`: the property is false of the code; the theorem shows it, where possible for *every* state/value rather than
  for one witness.

A property the code violates is kept in `properties.jsonl` in the form a user would rely on, with the violation stated, and
has status `partial`. Nothing is `not_applicable`.

## 2. Trusted base

* Lean 4.33's kernel. No `native_decide`, no `bv_decide`, no compiled evaluation in any proof. `decide +kernel` is used for
  finite computations (the emission curve, tables of the address check, the embedded genesis files); these run in the kernel.
* Axioms: `#print axioms` of all property theorems shows subsets of `propext`, `Classical.choice`, `Quot.sound` (Lean's
  own). None of our own. `vcheck` reports `n_trusts_compiler: 0`.
* That the model says what the code says. This was checked by reading (line citations on every definition) and by the
  conformance run: `tools/conform.sh` evaluates the *model's own definitions* on every assertion of the Go unit tests (address,
  tree, beserial, policy, wallet, accounts, genesis) and on both embedded genesis profiles; `conformance.txt` is the output
  (all assertions hold). For that, `Conformance/Crypto.lean` has executable Blake2b, SHA-512 and Ed25519; no theorem depends
  on them. This run is a test, not a proof, and no property rests on it.
* That the specification files say what the English says. They are short: `*/Spec.lean`, `Accounts/ContractSpec.lean` and the
  `Spec` sections at the top of some property files.
* That wrong programs break the theorems: `seeded/LOG.jsonl` records the edits tried (`tools/mutate.py`).

## 3. What is modelled, file by file

| file | modelled | not modelled / simplified |
|------|----------|---------------------------|
| tree/node.go, store.go, store_mem.go, store_overlay.go, tree.go | everything, with a heap of node objects, pointers in the stores, in-place mutation of branches, cached hashes, nested overlays | `Tree/Model.lean` has Go slices of nibbles and values as immutable lists; `Tree/SliceModel.lean` is the same code over slice headers and backing arrays with an arbitrary `append` growth policy, and C93 proves that the two agree (see 4); `String()` methods |
| address/address.go | everything | `encoding/base32` by its contract for 20/32 byte groups |
| policy/policy.go | everything; the mutex protocol as an interleaving machine | the Go memory model: steps between lock operations are atomic |
| beserial/encode.go, decode.go, size.go, tags.go, errors.go | everything over a universe of types (numbers, bool, string, arrays, slices, pointers, structs with tags, interfaces, types with own codecs) | maps, channels, funcs, floats, complex numbers: all are the `unsupported` case; recursive types, arrays of declared byte types and unexported fields are outside `Ty` and have their own model, `Beserial/Rec.lean` and `RecSize.lean` (C138, C146, without custom methods); no type of the repository is one of them |
| wire/*.go | all types, codecs, messages, signatures, compact targets, size methods, flags | `wire/nibbles.go` is modelled by itself (`Wire/Nibbles.lean`, C126); `wire/tx_data.go`: `VestingCreation` is C136, its unexported types are used nowhere |
| accounts/accounts.go | everything but `Revert` (which only panics) | blocks have no nil `Tx` (proved of decoded ones: `decoded_full`), except in `Accounts/Handmade.lean` (C124), which models them; user-defined implementations of `wire.Account` only in `Accounts/Foreign.lean` (C125), user-defined `wire.Tx` only in `Accounts/ForeignTx.lean` (C135); texts of errors only in `Accounts/Texts.lean` (C145) |
| wallet/basic.go | everything but key generation | `crypto/rand` |
| genesis/genesis.go | `OpenProfile…`, `InitAccounts` with the three files as parameters, and the embedded `main` and `test` files as data (C112) | TOML decoding, the file system |
| cmd/gimiq/main.go | the replay loop over an archive given as a list of entries, some unreadable | `archive/tar`, `os`, `flag`, `log`, timing output |
| scripts/export_blocks.py | batching, numbering and writing order | HTTP/JSON-RPC, `tarfile` (the archive is a list); python→Go tar round trip assumed |

Errors are an enumeration; `%w` wrapping and texts are dropped (the `Error` methods are C145), but the data in them that callers can read (types, addresses,
amounts) is kept.

## 4. Points where the reading had to be argued

* **Aliasing of slices in the tree.** `append(node.Prefix, child.Suffix...)` when a branch with one child left is replaced
  writes beyond `len(node.Prefix)` in that branch's own backing array, and `updateHashes` appends to the prefix of a live
  branch. That nobody can observe this is not argued but proved: `Tree/SliceModel.lean` has the slices and their arrays, the
  growth policy of `append` is a parameter, and C93 is the refinement theorem. `PutEntry` keeps the caller's value slice and
  `GetEntry` returns it: C94 says what happens when a caller writes to it. The accounts code marshals into a fresh buffer for
  every put and only decodes what it gets.
* **Aliasing of slices in the codec.** The value model of the codec copies by nature. Whether the Go code does is C120
  (decoding) and C121 (encoding): `Beserial/HeapModel.lean` and `Wire/HeapModel.lean` have the decoders and encoders again
  with slices as references into a heap and Go's `append`, and the theorems say when this refines the value model. Kinds
  whose bytes lie inside the value (arrays, numbers) and strings (copied by the language) are no references there.
* **Floats.** `amountUnlocked` is modelled with correctly rounded 53-bit operations over the rationals (`fl`), one rounding per
  Go operation. A fused multiply-add cannot occur, since the expression has a division followed by a multiplication followed by
  a conversion. `float64 → uint64` beyond `2^64` is left open by the Go specification: parameter `conv`.
* **Map iteration** (the random address in the prune error, `OverlayStore.Flush`): arbitrary choice / arbitrary permutation.
* **Panics inside custom codecs** propagate through the generic codec as in Go.
* **`Size` never calls `SizeBESerial`** (size.go has no such call), hence C32's violations; the methods themselves are C84.
* **`services.go`** starts `iota` at the second constant, so Nano/Light/Full are 2, 4, 8 rather than 1, 2, 4 of the Nimiq
  protocol. Nothing in the repository contradicts it, so it is only noted here.
* **Memory** (C101): `Beserial/AllocModel.lean` counts the requests of the decoders at the sizes of amd64. Error values, the
  allocator's rounding and local variables that escape are not counted.
* **go-toml** maps the keys of the genesis configuration to the struct fields; a configuration is a parameter here.

## 5. Properties

| id | property | status | theorems in lean/Verif/ | how |
|----|----|----|----|----|
| C01 | Tree is a last-write-wins map | proved | Tree/Props | refinement of the pointer heap to the canonical compressed tree of the abstract map; induction over the puts |
| C02 | PutEntry reports change exactly | proved | Tree/Props | as C01; the returned flag is compared with the abstract map before the put |
| C03 | Root hash is history independent | proved | Tree/Props | the canonical tree is a function of the map; hashes are a function of the canonical tree |
| C04 | Root hash equals the Merkle-Patricia hash of the mapping | proved | Tree/Props | cached hashes invariant: every cached hash is zero or right, `updateHashes` makes the path right |
| C05 | Root hash commits to the mapping | proved | Tree/Props | injectivity of the node layouts; collision extracted along the recursion as a pair of listed strings |
| C06 | The store holds exactly the canonical nodes | proved | Tree/Props | the store invariant is an equality of the set of stored nodes with the canonical ones; counting |
| C07 | Tree operations never panic | proved | Tree/Props | every partial operation is `none` in the model, including running out of fuel; shown unreachable |
| C08 | Key/nibble conversion is a bijection | proved | Tree/NibblesProps | list induction |
| C09 | PrefixOf and CommonPrefix are the prefix order and its meet | proved | Tree/NibblesProps | list induction |
| C10 | Compress packs nibbles two per byte | partial | Tree/NibblesProps | refutation: exact panic set |
| C11 | OverlayStore behaves as the lower store with an overriding map | proved | Tree/Props | induction over operations and over the flush order (a permutation) |
| C12 | Tree over an overlay does not touch the lower store before Flush | partial | Tree/Props | refutation by a run for every key and value; the true part by the frame of the put |
| C13 | Tree over an overlay is still a correct map | proved | Tree/Props | C01 for stacks of overlays |
| C14 | A constructed OverlayStore is usable | partial | Tree/Props | refutation |
| C15 | Address decode inverts encode | proved | Address/Props | base-32 round trip, mod 97 arithmetic |
| C16 | Encoded address format and injectivity | proved | Address/Props | layout, injectivity from C15 |
| C17 | Exact acceptance set of Decode | proved | Address/Props | exact acceptance condition by cases on the length and the characters |
| C18 | Spaces are ignored by Decode | partial | Address/Props | refutation and exact rule |
| C19 | Decode requires country code NQ | partial | Address/Props | refutation and exact rule |
| C20 | The check function is the ISO 7064 mod-97 remainder | proved | Address/Props | Horner evaluation of the digit string equals the remainder; induction over the string with the 6-digit chunks of the code |
| C21 | Single-character typos are always detected | proved | Address/Props | gcd argument mod 97 on the weight of the changed digits |
| C22 | Adjacent transpositions in the data part are detected, except three exact pairs | proved | Address/Props | exhaustive over pairs of characters (kernel), lifted to all positions by multiplicativity |
| C23 | Supply never exceeds the cap and never shrinks | proved | Policy/Props | refinement to a recursion over Nat; uint64 cannot wrap |
| C24 | The supply cache is invisible | proved | Policy/Props | cache invariant: a prefix of the supply sequence |
| C25 | SupplyAfter is safe under concurrency | proved | Policy/Props | small-step interleaving of any number of goroutines; invariant over the lock and the program counters |
| C26 | Block reward is the supply increment | proved | Policy/Props | from C24 |
| C27 | Block reward never increases | proved | Policy/Props | certified fixed-point bounds of the remaining supply around the tail switch |
| C28 | Emission ends below the cap | proved | Policy/Props | as C27 |
| C29 | Unmarshal inverts Marshal | proved | Beserial/Props | structural induction over the type universe, law record for custom codecs |
| C30 | Decoding is canonical | proved | Beserial/Props | as C29 |
| C31 | Unmarshal's byte count is sound | proved | Beserial/Props | as C29 |
| C32 | Size is exact | partial | Beserial/Props, Wire/Codecs | structural induction; refutations by values |
| C33 | Marshal only appends | partial | Beserial/Props | structural induction; refutation below nil pointers |
| C34 | Marshal never reports success for a value it could not encode | partial | Beserial/Props | as C33 |
| C35 | Generic decoding never panics and never over-allocates | proved | Beserial/Props | the decoder takes the allocation predicate as a parameter |
| C36 | Over-long slices are not silently corrupted | partial | Beserial/Props | refutation for all over-long slices |
| C37 | UnmarshalFull accepts exactly whole encodings | proved | Beserial/Props | from C29 and C30 |
| C38 | Struct tag parsing | proved | Beserial/Props | fuel-free recursion over the tag string |
| C39 | Transactions round-trip | proved | Wire/Codecs | instance of C29/C30 plus the type byte |
| C40 | Accounts round-trip | proved | Wire/Codecs | as C39 |
| C41 | Every message that MarshalMessage accepts is decoded back | partial | Wire/Messages | instances per message type, refutations |
| C42 | Every supported message kind can be sent and received | partial | Wire/Messages | exact sets |
| C43 | UnmarshalMessage never panics on network input | partial | Wire/Messages | exact set of panicking inputs |
| C44 | Message type ids agree | partial | Wire/Messages | cases on the type id |
| C45 | Blocks round-trip | partial | Wire/Interlink | exact result of the decoder with its off-by-one order of slicing and copying |
| C46 | Bit sets decode to as many bits as they declare | partial | Wire/Codecs | uint8 arithmetic of (len+7)/8 |
| C47 | Net addresses round-trip | partial | Wire/Codecs | cases |
| C48 | Peer addresses can be encoded and decoded | partial | Wire/Codecs, Wire/Layouts | refutation for all values |
| C49 | Signed transaction bytes determine the transaction content | proved | Wire/Sign | layout injectivity with the length prefix modulo 2^16 |
| C50 | Wallet signatures are well-formed and attributable | proved | Wire/Sign | scheme correctness is a hypothesis |
| C51 | Peer address signatures | proved | Wire/Sign | as C50 |
| C52 | Merkle path root is binding | proved | Wire/Sign | induction over the path; explicit collision |
| C53 | Compact target representation | proved | Wire/Compact | digits base 256 |
| C54 | Accounts: read your writes | proved | Accounts/Props | refinement of the tree to a map of accounts |
| C55 | Push conserves money | partial | Accounts/Props, Accounts/Single | totals over all 2^160 addresses as a Finset sum; per-phase lemmas; refutations |
| C56 | Push is atomic | partial | Accounts/Atomic | refutation; the two cases where it holds |
| C57 | Senders cannot overspend | partial | Accounts/Props, Accounts/Single | per-step debit lemmas; refutations |
| C58 | Push only touches involved accounts | proved | Accounts/Props | frame lemma for every phase, also for failing pushes |
| C59 | Prune list discipline | proved | Accounts/PruneProps | association-list map, arbitrary first key of a map iteration |
| C60 | Vesting funds are released on schedule | proved | Accounts/ContractProps | float64 as correctly rounded 53-bit arithmetic over the rationals; monotonicity and error bounds of rounding |
| C61 | HTLC release rules | partial | Accounts/ContractProps | decoding of the proof layouts as an equivalence; refutation of the pre-image clause |
| C62 | Spending requires a valid signature | partial | Accounts/Single, Accounts/Unsigned | relation between blocks that differ in signatures only; refutation |
| C63 | Contract creation | proved | Accounts/ContractProps | layouts of the creation data as an equivalence |
| C64 | Push never panics on a decodable block | partial | Accounts/NoPanic | classification of all panics; refutations |
| C65 | Account-type checks cannot be bypassed | partial | Accounts/ContractProps | refutation for 0xFF; the rest by cases |
| C66 | Order of plain transfers in a block does not matter | proved | Accounts/Plain | permutation invariance of sums and maps |
| C67 | State hash after Push depends only on the account map | proved | Accounts/Props | from C03 |
| C68 | Genesis initialisation verifies the state hash | proved | Genesis/Props | composition of puts, push and hash |
| C69 | Replay accepts only hash-consistent chains | proved | Genesis/Replay | induction over the archive entries |
| C70 | Exported blocks are replayed | partial | Genesis/Export | model of the python exporter and of the reader; refutations |
| C71 | Codec arguments | proved | Beserial/Props | cases on the argument |
| C72 | Basic transactions converted to extended ones | partial | Wire/Sign | refutation |
| C73 | Accounts tree chunks can be encoded and decoded | partial | Wire/Misc | refutation for all non-empty chunks |
| C74 | Staking data round-trips | proved | Wire/Misc | instance of C29 |
| C75 | Received messages are read completely | proved | Wire/Strict | cases over the message types |
| C76 | Plain blocks have the expected effect | proved | Accounts/Exact | composition of the phases of Push |
| C77 | Money follows the emission schedule | partial | Accounts/ChainSupply, Accounts/Exact, Genesis/Embedded | induction over the chain with the emission schedule |
| C78 | A genesis profile is exactly what its files say | proved | Genesis/Profile | cases |
| C79 | The configured genesis hash is the genesis block's | partial | Genesis/Profile | refutation for any notion of block hash |
| C80 | A replay's final state is pinned by the last header | proved | Genesis/Replay | C05 applied to the final trees |
| C81 | The whole cap is minted, exactly at block 52,888,984 | proved | Policy/Exact | the curve is computed exactly: packed lanes, certified chunk by chunk by the kernel (`decide +kernel`), glued by an induction |
| C82 | Vesting withdrawals are cumulative | partial | Accounts/Repeat | chain of any length by induction; refutation |
| C83 | Transactions are valid only in their window, on their network and once | partial | Accounts/Repeat, Accounts/Unsigned | relation between blocks; chain of any length; refutation |
| C84 | SizeBESerial methods are exact | proved | Wire/SizeMethods | list lengths; soundness of Size |
| C85 | Peer identifiers, protocol and service flags | proved | Wire/SizeMethods | cases |
| C86 | A block can be undone | partial | Accounts/Undo | explicit inverse of the ledger function, by cases on the push |
| C87 | Contract money can be taken out by its rightful owner | proved | Accounts/Recover | explicit block, single-transaction push computed |
| C88 | Vesting releases whole steps up to the total | partial | Accounts/Recover | float rounding bounds; definitional independence of the total |
| C89 | A replay checks that the blocks form a chain | partial | Genesis/Complete, Genesis/Linkage | decoding computed on symbolic bytes, induction on the archive |
| C90 | Every valid chain can be archived and replayed | proved | Genesis/Complete | round trip of blocks, induction on the chain, C69 |
| C91 | Encodings delimit themselves | proved | Beserial/Prefix | from round trip and canonicity |
| C92 | An address has one textual form | partial | Address/Alias | mod 97 arithmetic |
| C93 | Shared backing arrays inside the tree are invisible | proved | Tree/SliceProps | Model: Tree/SliceModel.lean, tree.go over slice headers and backing arrays, growth of `append` a parameter. Simulation relation to a view with immutable prefixes (Tree/Slices.lean: every stored prefix reads as its path, arrays of different live branches are disjoint), preserved by every operation; then the invariant of C01-C07 carries over (Tree/SliceProps.lean). |
| C94 | Entries are isolated from the caller's buffers | partial | Tree/SliceProps | Same model; a caller's write is an update of a cell of the value arrays. The violation is proved for every reachable tree, every put that changes the entry and every changed byte. |
| C95 | AccountEq is equality of account states | proved | Accounts/Errors | Case analysis; the encodings by C40. |
| C96 | Push's errors tell the truth | proved | Accounts/Errors | Spec: the inductive predicate Culprit (Accounts/Errors.lean), one constructor per kind of error. Inversion of every phase for the error case; the decoder's errors for the contract types by induction over the type. |
| C97 | PutEntry's hashing does not grow with the tree | proved | Tree/Cost | updateHashes with a log of hashed strings (Cost.lean); erasure and completeness of the log by induction; the number of visited nodes is bounded by induction on the depth from the description of what update invalidates. |
| C98 | Decoding into a variable that already holds a value | partial | Wire/Reuse | Mutual induction over the type universe; the model's decoder takes the old value as an argument. The exact statements for the header and the block say which single field is carried over. |
| C99 | Zero values are zero bytes on the wire | proved | Beserial/Zero, Wire/Zero | Mutual induction over the type universe on the encoder run on the zero value; the way back is the round-trip theorem C29. |
| C100 | GetAddress of one wallet from several goroutines | partial | Wire/WalletConc | Interleaving model of goroutines stepping through compare, store and load of the cache in chunks; invariants over schedules, and an explicit two-goroutine schedule for the violation. |
| C101 | Memory requested by Unmarshal | proved | Beserial/Alloc, Beserial/AllocExact, Wire/Alloc | `alloc` (Beserial/AllocModel.lean) runs beside the decoder and counts the requests at each of its allocation sites; each own decoder of package wire has its count. By induction over the type the count is at most `fixedMem t + perByte t * n`, with the coefficients read off the type; slices use that each element reads at least one byte. Then the coefficients of all protocol types are evaluated.; `C101_exact`: on success the count is exactly the memory behind the value |
| C102 | The tree over any Store | partial | Tree/StoreCopy, Tree/StoreSim | The functions of tree.go are run over an abstract store (StoreImpl.lean: a state machine for GetNode, PutNode, DelNode). A simulation (StoreSim.lean) relates any pointer-keeping store to the MemStore model, step by step through update, prune, invalidatePath and updateHashes, and carries the theorems of C01-C05 over. For the copying store an invariant (root with the first leaf as only child, a leaf for every key) is kept by every put below the same digit; the hash of such a state is computed through the view-level correctness theorem. |
| C103 | PutEntry interrupted by its store | partial | Tree/Broken, Tree/Interrupt | tree.go runs over a MemStore that writes down the whole state (nodes, store) before and after each of its calls (Interrupt.lean, an instance of the abstract store of C102). An invariant of all intermediate states (branch prefixes have fewer than 40 digits; the leaf of each key is the old one, or the new one for the key being put) is proved through every function. For the violation: the first write of every update is the leaf; from the state after it the retry is computed. Tree/Broken.lean: C103_delete_violated - after an interrupted deletion a later put of a neighbouring key panics. |
| C104 | An interrupted Flush can be repeated | proved | Tree/Interrupt | flushStates lists the states between the steps of Flush; by induction over the visiting order every one of them answers as the overlay did (an entry that is already written down and not yet deleted is written again with the same node), and flush_spec of C11 finishes from there. |
| C105 | The account GetAccount returns is the caller's own | partial | Accounts/Shared | Account objects of the process as a list (position 0 is InitialAccount), pointers are positions; the code of accounts.go is run over a ledger that dereferences. Simulation with the map of accounts in which missing accounts read as whatever position 0 holds; for the initial value this is the usual map. |
| C106 | GetEntry concurrently with PutEntry | proved | Tree/Readers | tracing store: the states at all store accesses of a sequence of puts; invariant that leaves are immutable and that the new entry, once visible, stays visible; the counter of effective puts is monotone along the timeline |
| C107 | Hash concurrently with PutEntry | partial | Tree/Readers | the state between updateEntry and updateHashes from the specification of update; injectivity of the node encoding; every hash in the encoding of a mapping is a value of the hash function |
| C108 | Store accesses do not grow with the tree | proved | Tree/Access | A wrapper counts the calls of an arbitrary store (`counted`); a cost logic (`CostM`) relates the tree over it to the tree over a MemStore: `update` makes one call a level and at most three at the end and succeeds within 41 levels (`upd_spec`, `update_more`), `updateHashes` makes at most two calls a string hashed (`putEntryL_cost`, C97). |
| C109 | Accounts over any Store | proved | Accounts/AnyStore | accounts.go is modelled over an abstract ledger; a ledger on the tree over an arbitrary store (`storeLedger`) simulates the one on the MemStore tree step by step (`same_ledger`, from C102's simulation), hence all answers agree. |
| C110 | Push's store accesses are linear in the transactions | proved | Accounts/AnyStore | The ledger over a counting store (C108): one call a GetAccount, 128 a PutAccount; a unary cost logic (`AtMost`) over the code of accounts.go. |
| C111 | The bytes of every message are the documented layout | proved | Wire/BlockLayout, Wire/Layouts | Layouts written out with big-endian digits; the generic codec's canonicity theorem (C37) turns acceptance into the specified encoding, which is then computed; the block adds the complete description of the interlink decoder. |
| C112 | Built-in profiles open and carry exactly the initial supply | proved | Genesis/Embedded | The embedded files are written into generated modules (tools/gen_genesis.py) as the numbers whose base 256 digits they are; the kernel takes the numbers apart (comparing products and sums), checks that the addresses are distinct and adds the balances; C78 and C111 turn this into the decoder's answer, C68 into the behaviour of InitAccounts. |
| C113 | Ledgers in one process do not influence each other | proved | Accounts/Isolation | Process with a tree per ledger and one cache; a bisimulation between nodes with the same tree and arbitrary reachable caches, lifted through Push by the generic simulation lemma; goroutines by a ledger whose cache is replaced by an arbitrary reachable one before each access. |
| C114 | Work and memory of the emission schedule | proved | Policy/Cost | Counting copies of the functions, proved to erase to the model; amortised bound by induction on the history with the cache invariant of C24. |
| C115 | Compact targets of any integer | partial | Wire/SignedTarget | All of `Int`, with `big.Int.Bytes` of the absolute value and Euclidean `Div`; exact panic set, exact range (iff), and for every number the collision with its negative and with its 256^256 multiple. |
| C116 | A wallet whose keys are assigned by hand | partial | Wire/WalletAny | `Wire/WalletAny.lean`: slices as nil or (bytes, spare capacity); C116_same shows that on well-formed wallets the code is that of the other properties; panic conditions by cases; history by induction. |
| C117 | Nodes on different platforms agree | partial | Accounts/Platform | Two environments with the same hash and arbitrary `pick`/`conv`; lock-step induction over the code of Push on the account map, lifted to nodes by the simulation theorem; the split is a theorem for every such contract. |
| C118 | A crash in the middle of Push | partial | Accounts/Crash | `PushUntil E k` runs the code of Push over `dying`, a ledger that stops at write k+1 (Accounts/Crash.lean). A triple `Safe` over all interruption points gives the frame and the money bound on the map ledger; simulation carries it to the tree. `Stepwise` relates the runs with k and k+1 writes. |
| C119 | Time taken by Unmarshal is linear in the input | proved | Beserial/Work, Beserial/WorkExact, Wire/Work | `work` counts steps beside `decode`; linear bound by mutual induction over types, with a clause for the bytes read on success; each custom decoder is shown to keep its own bound; `C119_exact`: on success the count is exactly the number of parts of the value |
| C120 | What Unmarshal returns shares no memory with its input | proved | Beserial/Heap, Wire/Heap | model the decoder with a heap of byte arrays (slices are references, pop keeps referring to the input), prove by induction over the type that it refines the memoryless decoder, that the old heap is a prefix of the new one and that all references in the result are to distinct arrays beyond it |
| C121 | What Marshal writes to | proved | Beserial/Append, Wire/Append | Beserial/HeapModel.lean describes every encoder by the list of its appends and runs the list on a heap of byte arrays with Go's append (in place within the capacity, else a new array with a capacity chosen by an arbitrary function). Beserial/Append.lean proves by induction over the list that only spare capacity is written, and by induction over the type that the appends are those of the model without memory; Wire/Append.lean does the custom types and messages. The condition on spare capacity is shown to be needed by an example. |
| C122 | Order of the transactions in any block | proved | Accounts/Order | Adjacent transpositions of the sender phase (two debits of one account commute, for all three account types), then push_iff. |
| C123 | The embedded genesis files are consistent under Blake2b-256 | proved | Genesis/RealHash | Blake2b-256 is defined after RFC 7693; a kernel friendly version and a kernel friendly Merkle-Patricia root over explicit rows are proved equal to the specifications for all inputs, and the kernel evaluates them on the embedded files (16 subtrees per profile). C112_init then loses its hypothesis. |
| C124 | A block with a nil transaction | partial | Accounts/Handmade | `pushHand` is the code of Push over a list of optional transactions, panicking where a method is called on nil (Accounts/Handmade.lean). With a nil one it is the senders' loop over the prefix followed by a panic; related to `PushUntil` of C118 by counting the writes of that loop. |
| C125 | Accounts of other types and foreign entries in the tree | partial | Accounts/Foreign | `Node.putAny` models PutAccount over an arbitrary type byte, emptiness and marshaller; `FReach` adds raw tree writes (Accounts/Foreign.lean). A ledger on byte entries (`rawLedger`) simulates the tree; a simulation restricted to the involved addresses relates it to the plain map; `Stuck` shows unreadable entries stay and block success. |
| C126 | wire.Nibbles and tree.Nibbles are the same type in behaviour | proved | Wire/Nibbles | `Wire/Nibbles.lean`: index-level model of every method; loop invariants relate the buffers to the recursive definitions of `Tree/Nibbles.lean`. |
| C127 | What a transaction hands out is the caller's own | partial | Wire/Views | `Wire/Views.lean`: transactions as references into a heap of byte arrays; array assignment allocates, slice and pointer assignment shares. |
| C128 | GetAccount while a block is pushed | partial | Accounts/Observe | Push is shown to be a program (free monad, Accounts/Prog) over GetAccount/PutAccount/reward; running it on a ledger that records its tree writes gives the sequence of PutEntry calls, to which the reader theorem of C106 applies; decoded with C40. |
| C129 | Changes on an overlay can be given up or written down | partial | Accounts/Tentative, Tree/Discard | An invariant over the heap (leaves of the starting state are never written to; the root branch object stays the root's) through all functions of tree.go; Push reduced to its writes with Accounts/Prog. |
| C130 | A block depends on nothing but the accounts it names | proved | Accounts/Local | Push is a program over GetAccount, PutAccount and BlockReward whose accesses all lie within the named accounts (`HasProgIn`); induction over programs gives locality and frame, and commutation follows. Accounts/Local.lean. |
| C131 | The hashing of a block is linear in its transactions | proved | Accounts/HashWork | Query sets (`Asks`, `Work`) compose through the monad; C97's log gives 42 per PutEntry, a decoded Merkle path has at most 255 hashes. Accounts/HashWork.lean. |
| C132 | No empty contract stays in the state | partial | Accounts/Empty | Accounts/Empty.lean: EmptyContract is read off the account after the push with push_iff; by cases on whether the address is a sender, had a contract (C59_contract) or got one (C63_created); chains by induction. |
| C133 | Nobody's money is seized by creating a contract | partial | Accounts/Empty | Accounts/Empty.lean: create_push computes a block with one creation in any state; the second step is C87_htlc_refund; the positive part follows from push_iff. |
| C134 | Concurrent PutEntry calls on one tree are serialised | partial | Tree/Writers | The store is a MemStore with a counter: when it reaches zero the whole of the second PutEntry runs before the first one's next store call. The first put is run symbolically on a reachable tree with a free slot at the root; the root it leaves is the one the first put alone would leave, so its hash follows from the sequential theorem; the state is Settled as in C103. |
| C135 | Transactions of other types | partial | Accounts/ForeignTx | Push once more over transactions given by what their methods return and by the result of the type assertion; on the library's two types it is the model of Push (C135_own). Relation: the first computation does what the second does or panics, closed under bind and loops; a loop panics when one step of it does where the other's does not. |
| C136 | wire.VestingCreation is the data of a vesting creation | partial | Accounts/VestingCreation | wire.VestingCreation as a type of the codec model; round trip from C29, refusal from the layouts of C63 and the acceptance conditions of C50ff. |
| C137 | Hashes of tree nodes built by hand | partial | Tree/HandNodes | node.go over raw bytes (Tree/HandNodes.lean); the hashed strings in closed form by induction over the loops, then inverted: digits are at least 48, the count is at most 16, so the end of the path is visible. |
| C138 | Types that contain themselves, declared byte types, unexported fields | partial | Beserial/Rec, Beserial/RecPrefix, Beserial/RecSame, Beserial/RecTotal | The two walks with a bound on the depth over types with names; values to encode are graphs of cells. Inductive relation Enc as specification; mutual induction over its derivations one way, over the bound the other way; lexicographic measure (bytes left, rank, type) for termination. C138_same_decoder/_encoder (RecSame.lean): on types without names and methods both walks equal those of Model.lean, by mutual induction over the types; the translation of values is injective (C138_same_values). C138_marshal_returns: induction over the finite value, with monotonicity in the bound (RecTotal.lean). C138_unique, C138_truncated, C138_stream, C138_deterministic: from the round trip, and by induction over the derivations of Enc (RecPrefix.lean). |
| C139 | Order and repetitions in the prune list | proved | Accounts/PruneOrder | The loop over the transactions is run on two maps that answer alike (induction over the transactions, for any ledger); the map built from a list answers with the last entry (pruneMap_get). |
| C140 | Several goroutines push blocks at the same time | partial | Accounts/Concurrent | Push is written as a program over the three ledger operations (Prog.push) and proved equal to the model of Push when run alone (run_push); goroutines take turns between operations (interleave). For disjoint blocks an invariant relates every goroutine's remaining program, run from the current accounts, to its run alone; the violation is a schedule that reads, lets the other block run, and continues. |
| C141 | Candidate blocks tried on several overlays over one store do not disturb each other | partial | Accounts/Forks, Tree/Forks | Trees on overlays share one heap (Family, Candidates). Since the branches of all trees but the first fit no longer, the invariant speaks of leaves only: leaf objects never change, and a put on a tree of any shape, if it returns, stores or removes exactly one leaf and returns the right answer (any_put, by induction on the recursion of Update and UpdateHashes). Push is a program over the ledger operations (Prog); by induction over programs a push that does not panic does what it does on a map. The panics come from left_slot and orphan_panics_any: a root slot that leads to a node which only the other overlay has. |
| C142 | Decoding does not depend on whether int has 32 or 64 bits | partial | Beserial/Width, Wire/Width | The largest int is a parameter of decoding (decodeAt, a second transcription of decode.go:60-214). A length that only one platform rejects exceeds the rest of the input, so the other one rejects it as well, at the same place (readLen_cases); the rest is by induction over types (decode_agree). Lengths of one or two bytes never reach maxInt (readLen_short); that all protocol types have such lengths is evaluated in the kernel (wireTypes_short). |
| C143 | The store below an overlay while the overlay is being flushed | partial | Accounts/MidFlush, Tree/MidFlush | The states of Flush are those of C104 (flushStates). By induction over the order, the lower store in the i-th state answers from the first (i+1)/2 entries, else as before (flushStates_lower); GetEntry looks at one leaf, leaves never change (Kept.leaf of C129), so it answers like the tree on the overlay or like the old tree (midFlush_spec). Orders that put a given set first give the violations. Push on an overlay is C129's tentative_spec; the payment is computed with C76. |
| C144 | Size on platforms of different int | partial | Beserial/IntSize, Wire/IntSize | Every addition and multiplication of size.go is repeated in an int of w bits (valueSizeAt, a second transcription of size.go:21-96); by induction over types it is the unbounded one, wrapped once (valueSizeAt_eq), so C32 carries over. Messages: the sizes that size.go computes for each kind are at most 146 or 5 + 32 per locator (message_sizes). |
| C145 | Texts of errors | partial | Accounts/Texts | The Error methods and the verbs of fmt that they use are written out (Accounts/Texts.lean): unsigned decimal, signed hexadecimal, a pointer to an array under %x, which prints an ampersand and the digits. Kinds are told apart by their first 13 characters, numbers end at the first non-digit, addresses have a fixed length; the address in a prune error comes back by C15. Assumed: that fmt does this. |
| C146 | Size of declared types | partial | Beserial/RecSize, Beserial/RecSizeTotal, Beserial/RecSound | size.go over the types and memories of Rec.lean, with a bound on the depth; induction over the derivations of Enc (enc_size); arrays and slices of numbers by kind_encAll. Agreement with Model.lean by mutual induction over types. The cyclic case: strong induction over the bound one way, over the list the other way. C146_returns: induction over the finite value, with monotonicity in the bound (RecSizeTotal.lean). C146_sound: mutual induction over the typing of the value (RecSound.lean). |

## 6. Defects of the code found on the way

Each is a theorem with suffix `_violated` (see MANIFEST.json): `Compress` panics (C10); trees over overlays write through to the
lower store (C12); a zero `OverlayStore` is unusable (C14); `Decode` and trailing spaces (C18), `&&` for `||` in the country code
check (C19); `Size` of bools and custom types (C32); nil pointers swallow errors and bytes in `Marshal` (C33, C34); over-long
slices are encoded with a truncated length (C36); messages that cannot be sent, received or told apart (C41-C44); interlinks are
decoded from the wrong offset (C45); bit sets of 249..255 bits (C46), which make `ComputeRoot` panic (C52, C64); IPv6 addresses lose
their type (C47); peer addresses have no encoding at all (C48); `AsExtendedTx` puts a bare signature where a proof is expected (C72);
tree chunks (C73); value+fee wraps around, so anybody can mint (C55, C57); fees of contract transactions come from nowhere (C55);
failed pushes leave half of the block applied (C56); vesting contracts can be overdrawn and emptied before they are unlocked (C57,
C82); HTLC pre-images are not checked (C61); signatures are not checked (C62); Push panics on decodable blocks (C64); the
sender type 0xFF bypasses the type check (C65); the exporter and the replayer disagree about the archive (C70); the configured
genesis hash is not checked (C79); validity windows, network ids and replays are not checked (C83); `Revert` panics (C86); vesting
releases differ from whole steps (C88); a replay checks neither linkage nor proof of work (C89); check digits 00, 01, 02 have
twins (C92); stored entries share memory with the caller's slices (C94); used variables leak into decoded values (C98);
`GetAddress` races (C100); `PutEntry` interrupted by its store can leave a wrong hash for good, and after an interrupted deletion later puts can panic (C103); `GetAccount` hands out the shared initial
account (C105); `Hash` during a `PutEntry` (C107); signs and exponents of compact targets (C115); hand-assigned wallet keys
(C116); floating point makes nodes disagree (C117); a crash inside `Push` (C118) and what readers see meanwhile (C128); overlays that are given up (C129). See also the
`_violated` theorems of C122, C124, C125 and C127.
