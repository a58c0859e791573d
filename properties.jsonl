{"id": "C01", "title": "Tree is a last-write-wins map", "statement": "Starting from PMTree{Store: NewMemStore()}, after any sequence of PutEntry calls GetEntry(k) returns exactly the value of the last PutEntry for k, and nil when k was never put or its last value was empty.", "quantifier": "every finite sequence of (20-byte key, value) puts, every key", "why_tests_cant": "The trie has merge, split, replace and prune cases whose combinations depend on the whole history; tests sample a handful of keys.", "anchors": ["tree/tree.go: PutEntry, GetEntry, updateEntry, update, prune, invalidatePath", "tree/store_mem.go"]}
{"id": "C02", "title": "PutEntry reports change exactly", "statement": "PutEntry returns true iff the mapping stored for that key was different before the call (an empty value counts as absent).", "quantifier": "every history of puts, every next put", "why_tests_cant": "Depends on the whole history.", "anchors": ["tree/tree.go: PutEntry, updateEntry"]}
{"id": "C03", "title": "Root hash is history independent", "statement": "Two trees built from fresh MemStores by any two PutEntry sequences that end in the same key-value mapping have the same Hash().", "quantifier": "every pair of put sequences with equal final mapping", "why_tests_cant": "Insertion/deletion orders are factorial in number; the existing test tries three.", "anchors": ["tree/tree.go: Hash, updateHashes, prune, update"]}
{"id": "C04", "title": "Root hash equals the Merkle-Patricia hash of the mapping", "statement": "After any put sequence Hash() equals the hash obtained by building the path-compressed 16-ary Merkle-Patricia tree of the current mapping from scratch; every child hash cached in a stored branch equals the hash of the node it references (no stale hash survives a PutEntry).", "quantifier": "every put sequence, every hash function of 32-byte output", "why_tests_cant": "Stale cached hashes only show after particular histories.", "anchors": ["tree/tree.go: updateHashes, invalidatePath", "tree/node.go: Branch.Hash, Leaf.Hash"]}
{"id": "C05", "title": "Root hash commits to the mapping", "statement": "If two trees have the same Hash() then they hold the same mapping, or two different byte strings with the same Blake2b-256 digest have been exhibited.", "quantifier": "every pair of mappings reachable by puts", "why_tests_cant": "Quantifies over pairs of states; collision-resistance reductions are not testable.", "anchors": ["tree/node.go: Branch.Hash, Leaf.MarshalTo"]}
{"id": "C06", "title": "The store holds exactly the canonical nodes", "statement": "After any put sequence the MemStore holds one leaf per mapped key, the root branch, and one branch per path where at least two mapped keys diverge - nothing else (no garbage, no single-child branch); hence at most 2n+1 nodes for n keys.", "quantifier": "every put sequence", "why_tests_cant": "Leaks and missed merges depend on history.", "anchors": ["tree/tree.go: update, prune", "tree/store_mem.go"]}
{"id": "C07", "title": "Tree operations never panic", "statement": "On a tree built from NewMemStore by any put sequence, GetEntry, PutEntry and Hash never panic (no failed type assertion, nil node, or index out of range).", "quantifier": "every put sequence and key", "why_tests_cant": "A reachable bad state may need a long history.", "anchors": ["tree/tree.go: GetEntry, update, updateHashes, Hash"]}
{"id": "C08", "title": "Key/nibble conversion is a bijection", "statement": "ToKey(KeyToNibbles(k)) = k for every 20-byte key; every nibble is < 16; HexBytes is the lower-case hex of the key; ToKey panics exactly on lists whose length is not 40.", "quantifier": "all 2^160 keys, all nibble lists", "why_tests_cant": "2^160 inputs.", "anchors": ["tree/store.go: KeyToNibbles, ToKey, HexBytes", "wire/nibbles.go"]}
{"id": "C09", "title": "PrefixOf and CommonPrefix are the prefix order and its meet", "statement": "a.PrefixOf(b) holds iff b = a ++ c for some c; a.CommonPrefix(b) is a common prefix of a and b and every common prefix of both is a prefix of it.", "quantifier": "all nibble lists", "why_tests_cant": "Unbounded lists.", "anchors": ["tree/store.go: PrefixOf, CommonPrefix", "wire/nibbles.go"]}
{"id": "C10", "title": "Compress packs nibbles two per byte", "statement": "Nibbles.Compress returns ceil(n/2) bytes packing the nibbles high-first. (The code violates this: it allocates (n-1)/2 bytes and panics on every non-empty list.)", "quantifier": "all nibble lists", "why_tests_cant": "Unbounded lists.", "anchors": ["tree/store.go: Compress", "wire/nibbles.go: Compress"]}
{"id": "C11", "title": "OverlayStore behaves as the lower store with an overriding map", "statement": "For any sequence of PutNode/DelNode/GetNode/Flush on an initialised OverlayStore, GetNode returns the node of the last write, PutNode/DelNode leave the lower store untouched, and Flush makes the lower store answer every GetNode as the overlay did, whatever order the map is iterated in, and leaves the overlay empty.", "quantifier": "every operation sequence, every map iteration order, every lower store", "why_tests_cant": "Go map iteration order and histories cannot be enumerated.", "anchors": ["tree/store_overlay.go"]}
{"id": "C12", "title": "Tree over an overlay does not touch the lower store before Flush", "statement": "Running PutEntry on a PMTree whose Store is an OverlayStore leaves what the lower store returns unchanged until Flush. (The code violates this: branch nodes fetched from the lower store are mutated in place.)", "quantifier": "every lower store, every put sequence", "why_tests_cant": "Aliasing through pointers; depends on which nodes come from below.", "anchors": ["tree/store_overlay.go", "tree/tree.go: invalidatePath, update, prune, updateHashes"]}
{"id": "C13", "title": "Tree over an overlay is still a correct map", "statement": "C01, C02, C04 and C07 also hold when the tree's Store is an initialised OverlayStore (or any nesting of overlays) over a MemStore.", "quantifier": "every nesting depth, every put sequence", "why_tests_cant": "Histories and nesting unbounded.", "anchors": ["tree/store_overlay.go", "tree/tree.go"]}
{"id": "C14", "title": "A constructed OverlayStore is usable", "statement": "An OverlayStore obtained from outside the package (OverlayStore{Lower: s}) accepts PutNode. (Violated: the diffs map is nil and there is no constructor, so every PutNode/DelNode panics; hence PutEntry always panics.)", "quantifier": "every lower store, every key", "why_tests_cant": "Universal over stores and keys.", "anchors": ["tree/store_overlay.go: PutNode, DelNode"]}
{"id": "C15", "title": "Address decode inverts encode", "statement": "address.Decode(address.Encode(a)) = (a, nil).", "quantifier": "all 2^160 addresses", "why_tests_cant": "2^160 inputs; the checksum carry logic is data dependent.", "anchors": ["address/address.go: Encode, Decode, addressCheck"]}
{"id": "C16", "title": "Encoded address format and injectivity", "statement": "Encode(a) is 44 ASCII characters: 'NQ', two decimal check digits, then eight groups of a space and four base-32 characters from the alphabet; distinct addresses have distinct encodings even with the spaces and the four-character header removed.", "quantifier": "all addresses and pairs of addresses", "why_tests_cant": "2^160 inputs.", "anchors": ["address/address.go: Encode, Encoding"]}
{"id": "C17", "title": "Exact acceptance set of Decode", "statement": "Decode(s) = (a, nil) iff s without spaces has 36 bytes, s does not end in a space, its first character is 'N' or its second is 'Q', all four header characters are alphanumeric, the last 32 characters are the base-32 digits of a read as a big-endian number, and the decimal expansion of the rearranged string is 1 mod 97. Otherwise it returns an error and never panics.", "quantifier": "all byte strings", "why_tests_cant": "Unbounded strings.", "anchors": ["address/address.go: Decode, truncateWhitespace, addressCheck"]}
{"id": "C18", "title": "Spaces are ignored by Decode", "statement": "Adding or removing spaces anywhere in the input does not change Decode's result. (Violated at the end of the string: a trailing space after the 36th character is rejected; holds for every other position.)", "quantifier": "all strings and space positions", "why_tests_cant": "Unbounded strings.", "anchors": ["address/address.go: truncateWhitespace"]}
{"id": "C19", "title": "Decode requires country code NQ", "statement": "Decode rejects every string not starting with NQ. (Violated: && instead of || accepts any string that has N first or Q second.)", "quantifier": "all strings", "why_tests_cant": "Unbounded strings.", "anchors": ["address/address.go: Decode"]}
{"id": "C20", "title": "The check function is the ISO 7064 mod-97 remainder", "statement": "The block-wise, string-based addressCheck equals (the whole decimal expansion) mod 97 of the rearranged string with letters A..Z read as 10..35, case-insensitively, and fails exactly on non-alphanumeric characters.", "quantifier": "all 36-byte strings", "why_tests_cant": "36-byte strings; block boundaries depend on the data.", "anchors": ["address/address.go: addressCheck"]}
{"id": "C21", "title": "Single-character typos are always detected", "statement": "If Decode accepts s, then changing one character of it (spaces removed) to another of the same class (digit to digit, letter to different letter) makes Decode fail.", "quantifier": "all accepted strings, all positions, all replacement characters", "why_tests_cant": "Universal over addresses and typos.", "anchors": ["address/address.go: Decode, addressCheck"]}
{"id": "C22", "title": "Adjacent transpositions in the data part are detected, except three exact pairs", "statement": "If Decode accepts s and two different adjacent characters are swapped inside the last 32 characters, Decode fails, unless the pair is {B,1}, {M,2} or {X,3}, which are never detected by the checksum.", "quantifier": "all accepted strings and positions", "why_tests_cant": "Universal over addresses and typos.", "anchors": ["address/address.go: Decode, addressCheck"]}
{"id": "C23", "title": "Supply never exceeds the cap and never shrinks", "statement": "For all heights SupplyAfter(h) <= TotalSupply (no uint64 wrap in the emission formula), InitialSupply <= SupplyAfter(h) and SupplyAfter is non-decreasing in h.", "quantifier": "all 2^32 heights", "why_tests_cant": "2^32 heights with 52 million steps of dependent arithmetic.", "anchors": ["policy/policy.go: SupplyAfter, SupplyBetween, BlockRewardBySupply"]}
{"id": "C24", "title": "The supply cache is invisible", "statement": "SupplyAfter(h) returns the same value for every state of the package-level cache reachable by any previous sequence of calls: the value of the uncached block-by-block recursion.", "quantifier": "all call histories and heights (except the 2^32-1 wrap, treated explicitly)", "why_tests_cant": "Depends on hidden global state left by earlier calls.", "anchors": ["policy/policy.go: SupplyAfter, supplyCache"]}
{"id": "C25", "title": "SupplyAfter is safe under concurrency", "statement": "For any number of goroutines calling SupplyAfter in any interleaving, every call returns the uncached value and the cache is only accessed under the lock.", "quantifier": "all interleavings of any number of calls", "why_tests_cant": "Schedules cannot be enumerated.", "anchors": ["policy/policy.go: SupplyAfter, supplyCacheLock"]}
{"id": "C26", "title": "Block reward is the supply increment", "statement": "BlockReward(h) = SupplyAfter(h) - SupplyAfter(h-1) for h >= 1, and BlockReward panics exactly for height 0.", "quantifier": "all heights", "why_tests_cant": "2^32 heights.", "anchors": ["policy/policy.go: BlockReward"]}
{"id": "C27", "title": "Block reward never increases", "statement": "BlockReward(h+1) <= BlockReward(h) for every h >= 1, including across the emission-tail switch at block 48,692,960.", "quantifier": "all heights", "why_tests_cant": "Needs the exact state after 48 million dependent steps.", "anchors": ["policy/policy.go: BlockReward, EmissionTailStart"]}
{"id": "C28", "title": "Emission ends below the cap", "statement": "There is a height (before 2^32) after which every BlockReward is 0, and from then on the supply is within 4000 Luna of TotalSupply but never above it.", "quantifier": "all later heights", "why_tests_cant": "Tail of a 2^32-long recursion.", "anchors": ["policy/policy.go"]}
{"id": "C29", "title": "Unmarshal inverts Marshal", "statement": "For every supported Go type and every value whose slice lengths fit their length tags, Marshal succeeds and Unmarshal of the result followed by arbitrary bytes yields the same value and n = number of bytes Marshal produced.", "quantifier": "all types of the supported universe, all values, all trailing data", "why_tests_cant": "Types and values are unbounded.", "anchors": ["beserial/encode.go: marshal", "beserial/decode.go: value"]}
{"id": "C30", "title": "Decoding is canonical", "statement": "If Unmarshal(data) succeeds with value v and n bytes read, then Marshal(nil, v) = data[:n]: no two encodings decode to the same value.", "quantifier": "all types, all inputs", "why_tests_cant": "Unbounded inputs.", "anchors": ["beserial/decode.go", "beserial/encode.go"]}
{"id": "C31", "title": "Unmarshal's byte count is sound", "statement": "For every type, input and outcome (success or error), 0 <= n <= len(data) and exactly the first n bytes were consumed; on success the result depends only on data[:n] and not on the variable's previous contents. (The last part fails for slices of zero-size elements, whose declared length is checked against the unread bytes.)", "quantifier": "all types, all inputs", "why_tests_cant": "Unbounded inputs.", "anchors": ["beserial/decode.go: Unmarshal, value, pop"]}
{"id": "C32", "title": "Size is exact", "statement": "If Size(v) returns n then Marshal(nil, v) succeeds with exactly n bytes; and Size succeeds whenever Marshal does. (Second half violated: bool and every type with a custom encoding other than plain numeric structs make Size fail.)", "quantifier": "all types, all values", "why_tests_cant": "Unbounded.", "anchors": ["beserial/size.go"]}
{"id": "C33", "title": "Marshal only appends", "statement": "Marshal(b, v) on success returns b followed by Marshal(nil, v). (Violated when a pointer's target fails to encode: see C34.)", "quantifier": "all prefixes, types, values", "why_tests_cant": "Unbounded.", "anchors": ["beserial/encode.go"]}
{"id": "C34", "title": "Marshal never reports success for a value it could not encode", "statement": "If some nested value cannot be encoded, Marshal returns an error. (Violated: the pointer case drops the error and returns nil bytes with nil error, losing everything written so far.)", "quantifier": "all types, all values", "why_tests_cant": "Universal over types.", "anchors": ["beserial/encode.go: marshal, case reflect.Ptr"]}
{"id": "C35", "title": "Generic decoding never panics and never over-allocates", "statement": "For every type built without custom unmarshalers and every input, Unmarshal returns a value or an error (no panic), and every slice it allocates has at most as many elements as there were input bytes.", "quantifier": "all types, all inputs", "why_tests_cant": "Unbounded adversarial inputs.", "anchors": ["beserial/decode.go"]}
{"id": "C36", "title": "Over-long slices are not silently corrupted", "statement": "Marshal of a slice longer than its length tag can express fails. (Violated: the length is silently truncated modulo 2^tag bits.)", "quantifier": "all slices", "why_tests_cant": "Lengths above 2^8, 2^16, 2^32.", "anchors": ["beserial/encode.go: marshalInt"]}
{"id": "C37", "title": "UnmarshalFull accepts exactly whole encodings", "statement": "UnmarshalFull(data, v) succeeds iff Unmarshal succeeds with n = len(data); for values satisfying C29's conditions this holds iff data is Marshal of the value.", "quantifier": "all types and inputs", "why_tests_cant": "Unbounded.", "anchors": ["beserial/decode.go: UnmarshalFull"]}
{"id": "C38", "title": "Struct tag parsing", "statement": "A beserial struct tag is accepted iff it is 'optional', 'len_tag=uintN' (N in 8,16,32,64) or repetitions of 'optional'; every other combination panics, including documented-looking 'len_tag=uint8,optional'.", "quantifier": "all tag strings", "why_tests_cant": "Unbounded strings.", "anchors": ["beserial/tags.go"]}
{"id": "C39", "title": "Transactions round-trip", "statement": "For every basic or extended transaction with data and proof shorter than 65536 bytes, encoding WrapTx and decoding it (with any trailing bytes) gives the same transaction and the exact length; decoding accepts only types 0 and 1.", "quantifier": "all transactions", "why_tests_cant": "Unbounded.", "anchors": ["wire/tx.go: WrapTx", "wire/tx_basic.go", "wire/tx_extended.go"]}
{"id": "C40", "title": "Accounts round-trip", "statement": "For every basic, vesting or HTLC account encoding WrapAccount and decoding it gives the same account and the exact length, and decoding is canonical; unknown types are rejected.", "quantifier": "all accounts", "why_tests_cant": "Unbounded.", "anchors": ["wire/account.go: WrapAccount", "wire/hash.go"]}
{"id": "C41", "title": "Every message that MarshalMessage accepts is decoded back", "statement": "For every message m, if MarshalMessage(m) = b then b starts with the 8-byte type and UnmarshalMessage(type, b[8:]) returns m. (Violated by HeaderMessage, whose Type() is that of BlockMessage.)", "quantifier": "all messages of all 18 supported kinds", "why_tests_cant": "Unbounded.", "anchors": ["wire/msg_types.go: MarshalMessage, UnmarshalMessage"]}
{"id": "C42", "title": "Every supported message kind can be sent and received", "statement": "MarshalMessage succeeds for messages of every kind UnmarshalMessage knows. (Violated: Version, Inv/GetData/GetHeader/NotFound, Block, Tx, Ping/Pong and non-empty Addr messages always fail; Mempool/GetChainProof/GetHead panic.)", "quantifier": "all messages", "why_tests_cant": "Universal statements per kind.", "anchors": ["wire/msg_types.go", "wire/msg.go", "wire/msg_inv.go", "wire/msg_p2p.go", "wire/p2p.go", "beserial/size.go"]}
{"id": "C43", "title": "UnmarshalMessage never panics on network input", "statement": "For every type number and buffer UnmarshalMessage returns a message or an error. (Violated: types 9, 40, 60 panic on every buffer and type 6 panics on a block whose interlink bit count is 249..255; holds for all others.)", "quantifier": "all type numbers, all buffers", "why_tests_cant": "Adversarial inputs are unbounded.", "anchors": ["wire/msg_types.go: UnmarshalMessage", "wire/block.go", "wire/bitset.go"]}
{"id": "C44", "title": "Message type ids agree", "statement": "If UnmarshalMessage(t, b) succeeds with m then m.Type() = t. (Violated for t = 7, HeaderMessage.)", "quantifier": "all type numbers and buffers", "why_tests_cant": "Universal.", "anchors": ["wire/msg_types.go", "wire/msg_inv.go: HeaderMessage.Type"]}
{"id": "C45", "title": "Blocks round-trip", "statement": "Encoding a block and decoding it gives the same block. (Violated: interlink hashes are read one slot too late, so every block with interlink hashes decodes to wrong hashes; header, body, repeat bits and byte count are right.)", "quantifier": "all blocks with well-formed interlinks and in-range lengths", "why_tests_cant": "Unbounded.", "anchors": ["wire/block.go"]}
{"id": "C46", "title": "Bit sets decode to as many bits as they declare", "statement": "BitSet decoding yields Len bits backed by ceil(Len/8) bytes and bit(i) is defined for every i < Len; encode/decode round-trips. (Violated for Len >= 249: uint8 overflow gives 0 bytes and bit(i) panics.)", "quantifier": "all inputs", "why_tests_cant": "All lengths and contents.", "anchors": ["wire/bitset.go"]}
{"id": "C47", "title": "Net addresses round-trip", "statement": "Encoding a NetAddress and decoding it gives the same address. (Violated for IPv6: Type is not restored, so re-encoding is corrupt; holds for IPv4.)", "quantifier": "all addresses", "why_tests_cant": "2^128 addresses.", "anchors": ["wire/p2p.go: NetAddress"]}
{"id": "C48", "title": "Peer addresses can be encoded and decoded", "statement": "Every PeerAddress with a known protocol can be encoded and decoded. (Violated: both directions fail for every value/input because the Detail interface is passed to the generic codec.)", "quantifier": "all peer addresses, all inputs", "why_tests_cant": "Universal negative.", "anchors": ["wire/p2p.go: PeerAddress"]}
{"id": "C49", "title": "Signed transaction bytes determine the transaction content", "statement": "Two transactions with the same signing bytes have equal data, sender, sender type, recipient, recipient type, value, fee, validity start, network and flags; the proof/signature does not influence the signing bytes.", "quantifier": "all pairs of transactions", "why_tests_cant": "Pairs of unbounded values.", "anchors": ["wire/tx.go: TxContent", "wire/tx_basic.go: AsTxContent", "wire/tx_extended.go: AsTxContent"]}
{"id": "C50", "title": "Wallet signatures are well-formed and attributable", "statement": "SignExtendedTx produces a Proof that decodes fully to a SignatureProof carrying the wallet's public key and signature over the transaction's signing bytes, whose SignerAddress is the wallet's address; SignBasicTx fails without touching the transaction unless the sender key is the wallet's.", "quantifier": "all keys, transactions, signature schemes", "why_tests_cant": "Universal over keys and transactions.", "anchors": ["wallet/basic.go", "wire/signature.go"]}
{"id": "C51", "title": "Peer address signatures", "statement": "After Sign, VerifySignature is true until protocol, services, timestamp, key or signature change; the signed bytes determine protocol, services and timestamp and do not cover any other field.", "quantifier": "all peer addresses, keys, any correct signature scheme", "why_tests_cant": "Universal.", "anchors": ["wire/p2p.go: Sign, VerifySignature"]}
{"id": "C52", "title": "Merkle path root is binding", "statement": "If two Merkle paths and public keys give the same root and their branch directions, compared from the root down, do not contradict each other (one list is the end of the other), then the public keys, path lengths, directions and path hashes are equal - or one of the strings hashed for the first root and one of those hashed for the second are a hash collision; a path with no hashes gives PublicKeyToAddress; the root of every decoded path with at most 248 branches can be computed (paths with 249..255 branches crash).", "quantifier": "all keys and paths", "why_tests_cant": "Universal over pairs.", "anchors": ["wire/signature.go: ComputeRoot, SignerAddress"]}
{"id": "C53", "title": "Compact target representation", "statement": "TargetToCompact(t) panics exactly for t < 65536; otherwise, for every t that the one-byte exponent can express (t < 2^2039, all 256-bit targets), its exponent/mantissa expansion is t rounded down to the top 2-3 bytes, the mantissa's sign bit is clear, and the map is monotone in t.", "quantifier": "all big integers below 2^(8*254)", "why_tests_cant": "Unbounded integers.", "anchors": ["wire/utils.go"]}
{"id": "C54", "title": "Accounts: read your writes", "statement": "After PutAccount(a, acc), GetAccount(a) is acc (the initial account if acc is nil or an empty basic account), every other address is unchanged, and GetAccount never panics on a store only written through PutAccount.", "quantifier": "all histories, addresses, accounts", "why_tests_cant": "Histories unbounded.", "anchors": ["accounts/accounts.go: GetAccount, PutAccount"]}
{"id": "C55", "title": "Push conserves money", "statement": "A successfully pushed block changes the total of all balances by exactly BlockReward(height). (Violated in general: uint64 overflow of value+fee or of balances, contract senders not paying fees, vesting overdraft. Holds when every sender is a basic account and no addition overflows.)", "quantifier": "all states and blocks", "why_tests_cant": "All states and blocks.", "anchors": ["accounts/accounts.go: Push, pushInherents", "wire/account.go"]}
{"id": "C56", "title": "Push is atomic", "statement": "If Push returns an error the account state is as before. (Violated: earlier steps stay applied.)", "quantifier": "all states and blocks", "why_tests_cant": "All failure points.", "anchors": ["accounts/accounts.go: Push"]}
{"id": "C57", "title": "Senders cannot overspend", "statement": "After a successful Push no account has spent more than it had. (Violated: value+fee overflow for basic accounts, and vesting accounts never compare with their balance; holds for HTLCs and for basic accounts when value+fee does not overflow.)", "quantifier": "all accounts and transactions", "why_tests_cant": "All values.", "anchors": ["wire/account.go: ApplyOutgoingTx"]}
{"id": "C58", "title": "Push only touches involved accounts", "statement": "A Push changes no account other than the senders and recipients of the block's transactions and the miner, whether it succeeds or fails.", "quantifier": "all states, blocks, addresses", "why_tests_cant": "Universal.", "anchors": ["accounts/accounts.go: Push"]}
{"id": "C59", "title": "Prune list discipline", "statement": "After a successful Push every address on the prune list was a sender whose contract account was emptied by the block, quoted exactly as it stood, and is gone before the inherents; every emptied non-basic sender is on the list; otherwise Push fails.", "quantifier": "all states and blocks, all map iteration orders", "why_tests_cant": "Universal.", "anchors": ["accounts/accounts.go: pruneAccounts"]}
{"id": "C60", "title": "Vesting funds are released on schedule", "statement": "A vesting account can never be debited at or before VestingStart nor by more than the unlocked amount, and only by a proof whose signer address is the owner; the unlocked amount never decreases with height (as long as it stays below 2^63; beyond, Go does not define the conversion to uint64).", "quantifier": "all accounts, heights, transactions", "why_tests_cant": "Float64 arithmetic over all uint64 inputs.", "anchors": ["wire/account.go: VestingAccount"]}
{"id": "C61", "title": "HTLC release rules", "statement": "An HTLC debit succeeds only via: hash-match + recipient proof at height <= Timeout; recipient + sender proofs; or sender proof at height > Timeout; never more than the balance. The regular path must require the pre-image of the hash root. (Last clause violated: PreImage and HashDepth are ignored.)", "quantifier": "all accounts, heights, proofs", "why_tests_cant": "Universal over proofs.", "anchors": ["wire/account.go: HTLCAccount.ApplyOutgoingTx"]}
{"id": "C62", "title": "Spending requires a valid signature", "statement": "A successful Push implies each transaction carries a valid signature of its sender over its content. (Violated: signatures are never verified; the outcome does not depend on the signature bytes.)", "quantifier": "all states and blocks", "why_tests_cant": "Universal.", "anchors": ["accounts/accounts.go: Push", "wire/account.go", "wire/signature.go"]}
{"id": "C63", "title": "Contract creation", "statement": "createContract succeeds only for types vesting and HTLC, with creation data of 24/36/44 bytes (vesting) or 78 bytes with non-zero hash count (HTLC); the new contract holds exactly the recipient's previous balance plus the incoming value.", "quantifier": "all states and transactions", "why_tests_cant": "Universal.", "anchors": ["accounts/accounts.go: createContract", "wire/account.go: Init"]}
{"id": "C64", "title": "Push never panics on a decodable block", "statement": "Push returns normally for every block. (Violated: nil body, height 0, incoming payment to a contract; holds when these are excluded.)", "quantifier": "all states and blocks", "why_tests_cant": "Universal.", "anchors": ["accounts/accounts.go: Push", "wire/account.go: ApplyIncomingTx", "policy/policy.go: BlockReward"]}
{"id": "C65", "title": "Account-type checks cannot be bypassed", "statement": "Push rejects a transaction whose declared sender type differs from the account's. (Violated for declared type 0xFF, which disables the check; holds for all others.)", "quantifier": "all states and transactions", "why_tests_cant": "Universal.", "anchors": ["accounts/accounts.go: pushTx"]}
{"id": "C66", "title": "Order of plain transfers in a block does not matter", "statement": "For blocks of transfers between basic accounts with no contract creation, any permutation of the transactions gives the same success and the same resulting state.", "quantifier": "all states and permutations", "why_tests_cant": "Permutations.", "anchors": ["accounts/accounts.go: Push, pushSenders, pushRecipients"]}
{"id": "C67", "title": "State hash after Push depends only on the account map", "statement": "Two nodes whose trees hold the same accounts (however built) and push the same block get the same outcome and the same tree hash.", "quantifier": "all pairs of histories", "why_tests_cant": "Pairs of histories.", "anchors": ["accounts/accounts.go", "tree/tree.go"]}
{"id": "C68", "title": "Genesis initialisation verifies the state hash", "statement": "InitAccounts succeeds iff the block pushes without error and the resulting root hash equals the header's AccountsHash.", "quantifier": "all profiles", "why_tests_cant": "Universal.", "anchors": ["genesis/genesis.go: InitAccounts"]}
{"id": "C69", "title": "Replay accepts only hash-consistent chains", "statement": "If the replay loop of gimiq ends normally, then after each archive entry but the first, the entry decoded completely to a block, it was pushed without error and the state hash equalled its AccountsHash; it reports the number of those blocks and transactions.", "quantifier": "all archives", "why_tests_cant": "Universal.", "anchors": ["cmd/gimiq/main.go: main"]}
{"id": "C70", "title": "Exported blocks are replayed", "statement": "Replaying an archive written by export_blocks.py --from a --to b replays every block a..b once and in height order. (Violated: the last block is excluded from the export, the reader skips the first entry although no manifest is written, and the result of sorted() is dropped, so a batch answered out of order is archived and replayed out of order. What holds: the archive has exactly a..b-1, and with in-order answers the replay covers exactly a+1..b-1.)", "quantifier": "all ranges, batch sizes, block contents and server response orders", "why_tests_cant": "Response orders.", "anchors": ["scripts/export_blocks.py", "cmd/gimiq/main.go", "docs/block_export.md"]}
{"id": "C71", "title": "Codec arguments", "statement": "Marshal, Unmarshal and Size accept pointers; a struct, number, string or array passed by value panics instead of returning an error, a nil pointer is an error for Marshal but silently decodes nothing in Unmarshal.", "quantifier": "all argument kinds, all data", "why_tests_cant": "Ranges over every kind of dynamic argument and all data.", "anchors": ["beserial/encode.go: Marshal", "beserial/decode.go: unmarshal", "beserial/size.go: Size"]}
{"id": "C72", "title": "Basic transactions converted to extended ones", "statement": "AsExtendedTx keeps everything that is signed, and the converted transaction's proof is a usable signature proof. (Second half violated: the proof is the bare 64-byte signature, which never decodes as a SignatureProof.)", "quantifier": "all transactions", "why_tests_cant": "All transactions and all signatures.", "anchors": ["wire/tx_basic.go: AsExtendedTx", "wire/signature.go: SignatureProof"]}
{"id": "C73", "title": "Accounts tree chunks can be encoded and decoded", "statement": "Every AccountsTreeChunk can be encoded and decoded back. (Violated: every chunk or proof with at least one node fails to encode, and none is ever decoded; only the empty chunk works.)", "quantifier": "all chunks, all inputs", "why_tests_cant": "Universal negative.", "anchors": ["wire/accounts_tree_chunk.go"]}
{"id": "C74", "title": "Staking data round-trips", "statement": "StakingTxData with or without a reward address round-trips through the codec and decoding accepts only its canonical layout.", "quantifier": "all staking data, all inputs", "why_tests_cant": "All keys and inputs.", "anchors": ["wire/tx_staking.go"]}
{"id": "C75", "title": "Received messages are read completely", "statement": "A buffer that UnmarshalMessage accepts as any message but a block is byte for byte the codec's encoding of the returned message, and no accepted buffer stays accepted when bytes are appended.", "quantifier": "all type numbers, buffers and appended bytes", "why_tests_cant": "All buffers.", "anchors": ["wire/msg_types.go: UnmarshalMessage"]}
{"id": "C76", "title": "Plain blocks have the expected effect", "statement": "A block of plain transfers between basic accounts (no contract flags, empty prune list, basic miner account, height >= 1, value+fee below 2^64) is accepted iff every account's balance before the block covers the sum of values and fees it sends; afterwards each account holds what it had, minus what it sent with fees, plus what it received, plus for the miner the reward and all fees.", "quantifier": "all reachable states, all such blocks of any length", "why_tests_cant": "All states and all lists of transactions.", "anchors": ["accounts/accounts.go: Push, pushSenders, pushRecipients, pushInherents", "wire/account.go: BasicAccount"]}
{"id": "C77", "title": "Money follows the emission schedule", "statement": "If the sum of all balances is SupplyAfter(h), then after successfully pushing any sequence of blocks of heights h+1, h+2, ..., h+k it is SupplyAfter(h+k). (Proved for basic senders whose value+fee does not overflow; contract senders add their fees, C55.)", "quantifier": "all chains of any length", "why_tests_cant": "Unbounded chains.", "anchors": ["accounts/accounts.go: Push", "policy/policy.go: SupplyAfter, BlockReward"]}
{"id": "C78", "title": "A genesis profile is exactly what its files say", "statement": "OpenProfile succeeds iff the toml file decodes, the block file is completely one encoded block and the account file is byte for byte a 16 bit count followed by that many address/account pairs; the profile then has exactly that block and those accounts, in order, none of them nil.", "quantifier": "all file contents", "why_tests_cant": "Unbounded inputs; only two embedded profiles are tested.", "anchors": ["genesis/genesis.go: OpenProfile, openProfileFromFS"]}
{"id": "C79", "title": "The configured genesis hash is the genesis block's", "statement": "A profile whose configured GenesisHash is not the hash of its block does not open or does not initialise. (Violated: the configured hash is never looked at.)", "quantifier": "all profiles, any notion of block hash", "why_tests_cant": "Universal.", "anchors": ["genesis/genesis.go: Config, openProfileFromFS, InitAccounts"]}
{"id": "C80", "title": "A replay's final state is pinned by the last header", "statement": "Two replays that end normally and whose last blocks claim the same AccountsHash end with the same account at every address, unless the strings hashed for the two states contain a hash collision.", "quantifier": "all starting states, all block sequences", "why_tests_cant": "All histories; collision resistance is not testable.", "anchors": ["cmd/gimiq/main.go: main", "accounts/accounts.go: Push", "tree/tree.go: Hash"]}
{"id": "C81", "title": "The whole cap is minted, exactly at block 52,888,984", "statement": "SupplyAfter(h) equals TotalSupply exactly when h >= 52,888,984; in the tail (from block 48,692,959 on) it is 4000 Luna per remaining block short of it. BlockReward(h) is at least 4000 for every height from 1 to 52,888,984 and 0 for every later one.", "quantifier": "all heights, all states of the supply cache", "why_tests_cant": "Depends on the exact value after 48,692,959 dependent integer steps; a rounding error of one Luna anywhere would leave a remainder that is never minted.", "anchors": ["policy/policy.go: SupplyAfter, BlockReward, BlockRewardBySupply, EmissionTailStart"]}
{"id": "C82", "title": "Vesting withdrawals are cumulative", "statement": "What has been withdrawn from a vesting contract over any sequence of blocks never exceeds what is unlocked at the height of the last withdrawal (so the locked part stays in the contract). (Violated: the unlocked amount is compared with each transaction on its own, so the same amount can be withdrawn again and again. For contracts without steps a block never withdraws more than the balance, and nothing before the start height.)", "quantifier": "all reachable states, all vesting accounts, all sequences of heights, all amounts", "why_tests_cant": "Histories of any length.", "anchors": ["wire/account.go: VestingAccount.ApplyOutgoingTx, amountUnlocked", "accounts/accounts.go: Push"]}
{"id": "C83", "title": "Transactions are valid only in their window, on their network and once", "statement": "Push accepts a transaction only if the block height is within its validity window, its network id is that of the chain, and it was not executed before. (Violated: replacing validity start heights, network ids and signatures by any other values never changes the outcome of Push, and the same transaction is executed in any number of blocks as long as the sender has the money.)", "quantifier": "all reachable states, all blocks, all replacement values, all numbers of repetitions", "why_tests_cant": "Universal over blocks and histories.", "anchors": ["accounts/accounts.go: Push, pushSenders", "wire/tx.go: TxContent", "wire/account.go: ApplyOutgoingTx"]}
{"id": "C84", "title": "SizeBESerial methods are exact", "statement": "For every bit set, hash, Merkle path, interlink, net address, ping, empty message, transaction and account, SizeBESerial reports exactly the number of bytes MarshalBESerial appends to any buffer; for a peer address, which cannot be encoded, it reports an error. A nil transaction or account panics in both methods; a nil pointer has size 1 and cannot be encoded.", "quantifier": "all values of the types, all buffers", "why_tests_cant": "Variable-length values of any size.", "anchors": ["wire/bitset.go, hash.go, signature.go, block.go, p2p.go, tx.go, account.go, msg_p2p.go, msg_types.go: SizeBESerial"]}
{"id": "C85", "title": "Peer identifiers, protocol and service flags", "statement": "GetPeerID of a key is the first 16 bytes of its address; ProtocolScheme is injective on the known protocols and says \"invalid\" exactly for all others; a services mask tells exactly which services it was made of.", "quantifier": "all keys and hash functions, all protocol ids, all sets of services", "why_tests_cant": "All keys.", "anchors": ["wire/p2p.go: GetPeerID, ProtocolScheme", "wire/services.go", "wire/account.go: PublicKeyToAddress"]}
{"id": "C86", "title": "A block can be undone", "statement": "After a block was pushed, reverting it restores the accounts as they were before: Revert of the block just pushed succeeds and gives back the previous state. (What holds: the accounts before a push are a computable function of the block and the accounts after it, so no two states are merged by the same block or chain. Revert itself always panics.)", "quantifier": "all reachable account states, all blocks, all chains", "why_tests_cant": "Every state and block; injectivity relates pairs of arbitrary states.", "anchors": ["accounts/accounts.go: Push, Revert"]}
{"id": "C87", "title": "Contract money can be taken out by its rightful owner", "statement": "In every reachable state, for a hash-time-locked contract the refund after the timeout by the sender, the redemption until the timeout by the recipient and the early resolution by both at any height can pay any part of the balance to any basic account; and a vesting owner can take out any unlocked amount, in particular the whole balance once enough steps have passed: some block with that transaction is accepted, and afterwards payee and contract balances changed by exactly the amount.", "quantifier": "all reachable account states, contracts, amounts up to the balance, heights in the window, keys of the parties", "why_tests_cant": "Liveness for every state, not just tried ones.", "anchors": ["wire/account.go: HTLCAccount.ApplyOutgoingTx, VestingAccount.ApplyOutgoingTx", "accounts/accounts.go: Push"]}
{"id": "C88", "title": "Vesting releases whole steps up to the total", "statement": "A vesting contract releases VestingStepAmount once for each complete step of VestingStepBlocks blocks after the start, nothing between the steps, and what is locked is counted from VestingTotalAmount.", "quantifier": "all vesting contracts and heights", "why_tests_cant": "Arithmetic over all parameters.", "anchors": ["wire/account.go: VestingAccount.ApplyOutgoingTx, amountUnlocked"]}
{"id": "C89", "title": "A replay checks that the blocks form a chain", "statement": "A replay ends normally only if each block names its predecessor's hash, has the next height, its interlink and body hash to the header's values, and version, difficulty, timestamp and nonce are valid. (Violated: of the 146 header bytes only accounts hash and height are read, and the heights may come in any order.)", "quantifier": "all profiles, archives and header contents", "why_tests_cant": "Ranges over all archives and all replacements of header bytes.", "anchors": ["cmd/gimiq/main.go: main", "accounts/accounts.go: Push", "wire/block.go: BlockHeader"]}
{"id": "C90", "title": "Every valid chain can be archived and replayed", "statement": "For every sequence of blocks that pushes one after the other on the genesis state, each claiming the accounts hash it leads to, the bytes Marshal writes for the blocks, put in an archive behind any first entry, are replayed completely: gimiq reports all blocks and transactions and ends in the state the pushes lead to.", "quantifier": "all profiles, all block sequences with encodable bodies and consistent interlinks", "why_tests_cant": "All histories.", "anchors": ["cmd/gimiq/main.go: main", "beserial/encode.go: Marshal", "wire/block.go"]}
{"id": "C91", "title": "Encodings delimit themselves", "statement": "No encoding is a proper prefix of the encoding of another value of the type; every proper prefix of an encoding makes Unmarshal return an error (no value, no panic); concatenated encodings of a type whose encodings are not empty split in one way only.", "quantifier": "all types with lawful custom codecs, all values, all cut positions, all sequences", "why_tests_cant": "All values and all truncations.", "anchors": ["beserial/encode.go", "beserial/decode.go"]}
{"id": "C92", "title": "An address has one textual form", "statement": "Up to spaces only one string starting with NQ decodes to a given address. (Violated exactly as follows: with two check digits, 02 and 99, 97 and 00, 98 and 01 are interchangeable; all strings decoding to an address agree in the last 32 characters.)", "quantifier": "all addresses and strings", "why_tests_cant": "2^160 addresses.", "anchors": ["address/address.go: Decode, Encode"]}
{"id": "C93", "title": "Shared backing arrays inside the tree are invisible", "statement": "Go slices share backing arrays, and the tree appends to slices that live nodes still refer to. Whatever the growth policy of append, as long as the callers do not write to value slices they handed over or received: GetEntry returns for every address the bytes last put, Hash is the root hash of the current map from addresses to bytes, PutEntry reports a change exactly when the bytes differ, and nothing panics; every sequence of puts gives the same results as if slices were immutable byte strings.", "quantifier": "all append growth policies, all value slices (any array, offset, length and capacity, overlapping or not), all histories of puts, gets, overlay pushes and flushes", "why_tests_cant": "An aliasing bug needs a particular capacity left over by a particular earlier append, and the growth policy changes between Go releases.", "anchors": ["tree/tree.go: PutEntry, GetEntry, update, prune, updateHashes", "tree/store.go: KeyToNibbles, CommonPrefix", "tree/node.go: BranchNode"]}
{"id": "C94", "title": "Entries are isolated from the caller's buffers", "statement": "Writing to a byte slice after it was passed to PutEntry, or to a slice received from GetEntry, does not change the stored entry; in particular the root hash always commits to what GetEntry returns.", "quantifier": "all reachable trees, addresses, value slices and writes to them", "why_tests_cant": "All buffers and histories.", "anchors": ["tree/tree.go: PutEntry, GetEntry", "tree/node.go: TerminalNode"]}
{"id": "C95", "title": "AccountEq is equality of account states", "statement": "AccountEq holds of two accounts exactly when neither is nil and they are the same account, which is the case exactly when their encodings are the same bytes.", "quantifier": "all pairs of accounts of all types, nil included", "why_tests_cant": "All pairs of accounts.", "anchors": ["wire/account.go: AccountEq"]}
{"id": "C96", "title": "Push's errors tell the truth", "statement": "If Push returns an error, what the error says is true of the block and of the accounts Push leaves behind: an OverspendError names what some transaction takes and what its sender can spend, and the latter is less; a type mismatch names the declared and the actual type of a sender, recipient or miner; a rejected recipient was to become a contract of an unknown type; prune errors name an emptied sending contract that is not listed or listed differently, or a listed address that is not an emptied sending contract; any other error comes with a transaction whose contract proof or contract data are not acceptable, and an HTLC error with the stated reason. ApplyOutgoingTx returns an OverspendError exactly when more is taken than can be spent.", "quantifier": "all reachable states, all blocks with a body, all errors", "why_tests_cant": "All states, blocks and failure points.", "anchors": ["accounts/accounts.go: Push, pushTx, createContract, pruneAccounts", "wire/account.go: ApplyOutgoingTx, Init, OverspendError"]}
{"id": "C97", "title": "PutEntry's hashing does not grow with the tree", "statement": "One PutEntry call hashes at most 42 nodes (the nodes on the key's path and at most one sibling), whatever the number of entries and the history of overlays, and exactly one node when the key already has that value; its effect depends on the hash function at no other strings. (A node whose hash is all zero would be hashed again; the statement assumes the tree has none.)", "quantifier": "all histories of puts, overlays and flushes, all keys and values, all hash functions that are not zero on the tree's nodes", "why_tests_cant": "All trees of any size; a test sees one tree and no cost bound.", "anchors": ["tree/tree.go: PutEntry, updateHashes, invalidatePath, prune"]}
{"id": "C98", "title": "Decoding into a variable that already holds a value", "statement": "For every type, every previous contents of the variable and every input, Unmarshal into a used variable has the same outcome (decoded value, byte count, error, panic) as into a fresh one. (False: a decoded peer address header keeps the old NetAddress.Type, a decoded block keeps the old Interlink.PrevHash, and exactly these; every other wire struct and message is independent of the old contents. BasePingMessage and EmptyMessage keep the direction or type in the receiver on purpose.)", "quantifier": "all types of the generic codec, all wire types, all old contents, all inputs (valid or not)", "why_tests_cant": "The tests decode into fresh variables; stale fields only show for particular pairs of old value and input, and the types, old values and inputs are unbounded.", "anchors": ["beserial/decode.go: value", "wire/p2p.go: NetAddress.UnmarshalBESerial, PeerAddress.UnmarshalBESerial", "wire/block.go: BlockInterlink.UnmarshalBESerial"]}
{"id": "C99", "title": "Zero values are zero bytes on the wire", "statement": "For every type, if a fresh variable (var x T) can be encoded, its encoding consists of zero bytes only, and for round-trip types that many zero bytes, whatever follows them and whatever the target held, decode to the zero value. In particular a fresh header is 146, a basic transaction 137, an extended transaction 68, a body 25 and a block 148 zero bytes.", "quantifier": "all types of the generic codec whose custom encoders have the property, which every custom type of package wire has; all targets, all trailing data", "why_tests_cant": "Ranges over all struct types and nestings.", "anchors": ["beserial/encode.go: marshal, marshalInt, marshalNumber", "beserial/decode.go: value", "wire/block.go", "wire/tx_basic.go"]}
{"id": "C100", "title": "GetAddress of one wallet from several goroutines", "statement": "On every schedule of any number of goroutines that call GetAddress on the same wallet, every call returns the wallet's address. (False: the cache is filled without a lock and in several machine words, so a call can return an address of which only a part has been stored. On amd64 this can happen exactly for addresses with non-zero bytes both among the first 16 and the last 4.) Holds when a call has returned before the goroutines start.", "quantifier": "all addresses, all schedules, any number of goroutines, every way of splitting the 20 byte accesses into words", "why_tests_cant": "The wrong result needs a particular interleaving of word-sized stores and loads; tests call GetAddress from one goroutine.", "anchors": ["wallet/basic.go: GetAddress"]}
{"id": "C101", "title": "Memory requested by Unmarshal", "statement": "For every input, valid or not, the memory that Unmarshal requests is at most a constant plus a constant times the length of the input, where both constants depend only on the type being decoded; on success only the bytes read count. In particular no peer can make UnmarshalMessage request more than 10375 bytes plus 208 bytes per byte of payload, a length field that is not backed by data requests nothing, and decoding a block needs at most 10103 + 161 * len(data) bytes. (Requests by reflect.New, reflect.MakeSlice, make, new and string conversions on amd64; error values and the allocator's rounding are not counted. Slice elements must take at least one byte of input, which all types of the repository do.)", "quantifier": "all types over the modelled universe with slice elements of at least one byte, all inputs, all message types", "why_tests_cant": "The bound is about every input, in particular about hostile ones, on every path including the failing ones; a test shows the use of memory on the inputs it has.", "anchors": ["beserial/decode.go: Unmarshal", "wire/bitset.go: UnmarshalBESerial", "wire/block.go: UnmarshalBESerial", "wire/signature.go: UnmarshalBESerial", "wire/tx.go: UnmarshalBESerial", "wire/account.go: UnmarshalBESerial", "wire/p2p.go: UnmarshalBESerial", "wire/msg_types.go: UnmarshalMessage"]}
{"id": "C102", "title": "The tree over any Store", "statement": "PMTree works over every implementation of the exported interface Store in which GetNode returns what PutNode put last under the key: after every sequence of PutEntry calls no call panics, GetEntry returns the last value, PutEntry reports exactly the changes, and Hash is the Merkle-Patricia hash of the mapping. (The package describes itself as a tree on a key-value storage engine.)", "quantifier": "all implementations of Store (as state machines that may look at nodes, make nodes and keep private state), all hash functions, all histories of puts", "why_tests_cant": "The tests use MemStore only, and the interface has unboundedly many implementations.", "anchors": ["tree/store.go: Store", "tree/tree.go: PMTree, PutEntry, GetEntry, Hash, invalidatePath, updateHashes", "tree/store_mem.go: MemStore", "tree/store_overlay.go: OverlayStore"]}
{"id": "C103", "title": "PutEntry interrupted by its store", "statement": "The methods of Store return no error, so a store that fails can only panic. If PutEntry is interrupted at any of its store accesses (before or after the access takes effect), then every other entry reads as before and the entry itself has its old or its new value; and repeating the PutEntry once the store works again gives the tree the right entry and the right hash.", "quantifier": "all hash functions, all histories of puts, all keys and values, all points of interruption", "why_tests_cant": "There is one point of interruption per store access, in every tree of every shape; tests do not interrupt.", "anchors": ["tree/tree.go: PutEntry, updateEntry, update, invalidatePath, prune, updateHashes", "tree/store.go: Store"]}
{"id": "C104", "title": "An interrupted Flush can be repeated", "statement": "If OverlayStore.Flush is interrupted at any point (before or after any call of the lower store, in whatever order the entries are visited), the overlay reads exactly as before, also as the store of a tree, and a further Flush in whatever order completes the work: the overlay is empty and the lower store reads as the overlay did at the beginning. Interruptions may be repeated.", "quantifier": "all lower stores (also overlays), all sets of changes, all iteration orders of both calls, all points of interruption", "why_tests_cant": "The iteration order of a Go map is random and the points of interruption are as many as entries.", "anchors": ["tree/store_overlay.go: Flush, GetNode"]}
{"id": "C105", "title": "The account GetAccount returns is the caller's own", "statement": "Whatever a caller does to the account object that GetAccount returned, or to one it passed to PutAccount, no later GetAccount, Hash or Push, of the same or another address, is affected. (False: for every address without an account, GetAccount returns a pointer to the exported variable wire.InitialAccount; a caller that assigns to its Value changes the balance of every nonexistent account in the process, which can then spend that money.) Holds for all objects except that one.", "quantifier": "all histories of GetAccount, PutAccount, Push, creation of account objects and assignments to their fields; all accounts, blocks and hash functions", "why_tests_cant": "It is about every later call after every interleaving of object manipulations with calls; a test sees one object and one address.", "anchors": ["accounts/accounts.go:GetAccount", "accounts/accounts.go:PutAccount", "wire/account.go:InitialAccount", "wire/account.go:WrapAccount.UnmarshalBESerial"]}
{"id": "C106", "title": "GetEntry concurrently with PutEntry", "statement": "If the methods of the store are synchronised (and nothing else is), goroutines may call GetEntry while another one calls PutEntry: GetEntry never panics and is linearizable. There is a single order in which the puts take effect, each during its call, and every GetEntry returns the entry that the puts which had taken effect at one moment during its call define; reads that begin after a put returned see it, and no read sees an older state than a read that ended before it began.", "quantifier": "all hash functions, all sequences of puts of the writer, all schedules of any number of readers (the moment of the reader's store access and the later moment at which it reads the node are arbitrary)", "why_tests_cant": "Schedules: a race detector or stress test sees a few interleavings, the property is about all of them.", "anchors": ["tree/tree.go: GetEntry, PutEntry", "tree/store.go: Store"]}
{"id": "C107", "title": "Hash concurrently with PutEntry", "statement": "If the methods of the store are synchronised, Hash called while another goroutine calls PutEntry returns the hash of the entries before or after that call. (False: PutEntry changes branches in place and marks hashes to be recomputed with zero, so that in the middle of every PutEntry that sets an entry Hash returns a value which is the root hash of no mapping whatsoever.)", "quantifier": "all hash functions without zero values, all histories, all puts that set an entry to a new non-empty value", "why_tests_cant": "Schedules.", "anchors": ["tree/tree.go: Hash, PutEntry, invalidatePath, updateHashes"]}
{"id": "C108", "title": "Store accesses do not grow with the tree", "statement": "Over any store that keeps the pointers it is given, whatever was put before, GetEntry and Hash call the store exactly once, PutEntry at most 128 times, and at most 3 times when the entry already has the value; n puts make at most 128 n calls.", "quantifier": "all stores that keep pointers, all histories, keys and values, all hash functions under which no node of the tree has the all-zero hash", "why_tests_cant": "Worst case over all trees and all stores; a benchmark measures some trees.", "anchors": ["tree/tree.go: GetEntry, PutEntry, Hash, update, prune, invalidatePath, updateHashes", "tree/store.go: Store"]}
{"id": "C109", "title": "Accounts over any Store", "statement": "Accounts on a tree over any store that keeps the pointers it is given (MemStore, overlays of any depth, or the user's own) answer every sequence of PutAccount, Push, GetAccount and Hash calls exactly as accounts on a new MemStore: same outcomes and errors, same accounts, same hashes.", "quantifier": "all stores that keep pointers, all sequences of calls, all blocks", "why_tests_cant": "Quantifies over all implementations of an interface and all histories.", "anchors": ["accounts/accounts.go: NewAccounts, Push, GetAccount, PutAccount", "tree/store.go: Store"]}
{"id": "C110", "title": "Push's store accesses are linear in the transactions", "statement": "Push of a block with n transactions calls the store at most 129 (4 n + 1) times, with any outcome, however many accounts there are and whatever was done before.", "quantifier": "all stores that keep pointers, all histories, all blocks; a hash function that never returns the all-zero hash", "why_tests_cant": "Worst case over all states and blocks.", "anchors": ["accounts/accounts.go: Push, pushSenders, pushRecipients, createContracts, pruneAccounts, pushInherents", "tree/tree.go: PutEntry"]}
{"id": "C111", "title": "The bytes of every message are the documented layout", "statement": "UnmarshalMessage(t, b) returns a message exactly if b is the documented layout for t, with the fields the layout says: block requests (count, 32-byte locators, maximum, direction), headers and heads (146 bytes), transactions, address requests, pings and pongs (4-byte nonce), version acknowledgements (32-byte key, 64-byte signature), address lists (only the empty one), and blocks (header, interlink, optional body with miner, extra data, transactions, pruned accounts; the interlink hashes shifted as in C45). MarshalMessage writes the 8-byte type id and the same layout for every message that can be sent, and Type() of every message is the documented id.", "quantifier": "all buffers, all messages of all kinds", "why_tests_cant": "An if-and-only-if about all byte strings.", "anchors": ["wire/msg_types.go: UnmarshalMessage, MarshalMessage", "wire/msg_inv.go", "wire/msg_p2p.go", "wire/msg.go", "wire/block.go", "wire/tx.go"]}
{"id": "C112", "title": "Built-in profiles open and carry exactly the initial supply", "statement": "OpenProfile(\"main\") and OpenProfile(\"test\") return the built-in profile whatever files the working directory holds (given that their toml decodes): distinct addresses with basic or vesting accounts only, and a block of height 1 by the zero address without transactions. The listed accounts together hold exactly 252000000000000 units, the initial supply of the emission schedule. InitAccounts on a fresh Accounts then succeeds iff the header's accounts hash is the Merkle root of the listed accounts plus the first reward, leaves exactly these accounts, whose total is the scheduled supply at height 1, and otherwise fails with a hash mismatch.", "quantifier": "both built-in profiles (the actual embedded bytes), every directory content, every hash function", "why_tests_cant": "The Go test only checks that opening and initialising do not fail; that no unit is missing or duplicated over all 1396 + 100 accounts, that no address repeats, and independence of the directory are not observable from it.", "anchors": ["genesis/genesis.go: OpenProfile, openProfileFromFS, Profile.InitAccounts, embedFiles", "genesis/files/main.accounts.bin", "genesis/files/main.block.bin", "genesis/files/test.accounts.bin", "genesis/files/test.block.bin", "policy/policy.go: SupplyAfter"]}
{"id": "C113", "title": "Ledgers in one process do not influence each other", "statement": "Several Accounts values over different trees can be used in one process, sequentially in any order or each in its own goroutine, together with direct calls of policy.SupplyAfter and policy.BlockReward: although they share the package-global supply cache, every Accounts gives exactly the answers and ends up with exactly the tree it would have if it were the only one in the process.", "quantifier": "every number of ledgers, every history of GetAccount, PutAccount, Push, Hash, SupplyAfter and BlockReward calls, every content the shared cache can have at any access", "why_tests_cant": "Tests run one ledger in one process; interference would need a particular history of another ledger.", "anchors": ["accounts/accounts.go: Accounts, GetAccount, PutAccount, Push", "policy/policy.go: supplyCache, supplyCacheLock, SupplyAfter, BlockReward"]}
{"id": "C114", "title": "Work and memory of the emission schedule", "statement": "Any sequence of SupplyAfter and BlockReward calls, in any order and for any heights, computes at most 5001 block rewards per call plus one per height up to the largest height asked for, and the package-global cache holds at most one entry per 5000 heights (never more than 858994). A single call costs at most 5000 rewards plus 5000 for each cache entry it adds, and it adds exactly the entries missing up to its height.", "quantifier": "every history of calls and every height (uint32)", "why_tests_cant": "A quadratic or unbounded cost for some order of heights would not show in a test of results.", "anchors": ["policy/policy.go: SupplyAfter, SupplyBetween, BlockReward, supplyCache, SupplyCacheInterval"]}
{"id": "C115", "title": "Compact targets of any integer", "statement": "TargetToCompact and DifficultyToCompact tell apart what the compact format can tell apart: a negative or too large argument is not given the compact form of another, valid number. (Violated: the sign is ignored by both; the exponent wraps around at 256, so t and t*256^256 have the same compact form. The exact range in which a non-negative target is recovered up to the precision of the mantissa is 2^16 <= t < 2^7*256^254, and below 2^16 in absolute value the call panics.)", "quantifier": "for every integer target and every integer difficulty", "why_tests_cant": "big.Int is unbounded; a test tries a few targets, all of them valid", "anchors": ["wire/utils.go: TargetToCompact, DifficultyToTarget, DifficultyToCompact", "policy/policy.go: BlockTargetMax"]}
{"id": "C116", "title": "A wallet whose keys are assigned by hand", "statement": "PrivateKey and PublicKey of a wallet.Basic are exported: whatever they hold, GetAddress is the address of the present PublicKey, signing succeeds only if the result is a signature of the wallet's key, and unusable keys are rejected. (Violated: GetAddress sticks to the first key it was called with; the two keys are never compared, so that signing with a mismatched pair succeeds with a proof nobody accepts; a public key slice that is too short is read beyond its length if it has capacity. Exact panic conditions of all methods and the exact answer of GetAddress after any history are proved.)", "quantifier": "for every content, length and capacity of the two slices, every signature scheme and hash, every transaction and every history of assignments and calls", "why_tests_cant": "the states of a wallet with exported fields are unbounded, and the cached address depends on the history", "anchors": ["wallet/basic.go: Basic, GetAddress, GetPublicKey, SignBasicTx, SignExtendedTx"]}
{"id": "C117", "title": "Nodes on different platforms agree", "statement": "Two nodes with the same accounts that push the same block reach the same verdict (up to the amount or the address quoted in an error), the same accounts and the same state hash, whatever CPU they run on and in whatever order their maps iterate. (Violated: the unlocked amount of a vesting contract is converted from float64 to uint64, which Go leaves to the platform from 2^64 on; there a block exists that an amd64 node refuses and an arm64 node executes. It holds for blocks whose values are at most 2^63 if every out-of-range conversion yields at least 2^63, and on any platform while the amounts of the spending contracts stay in range.)", "quantifier": "for every pair of nodes with equal accounts, every block, every map iteration order and every out-of-range conversion function", "why_tests_cant": "a test runs on one platform; the quantifier is over what the language specification leaves open", "anchors": ["wire/account.go: amountUnlocked, VestingAccount.ApplyOutgoingTx", "accounts/accounts.go: Push, pruneAccounts"]}
{"id": "C118", "title": "A crash in the middle of Push", "statement": "If the process dies (or another goroutine reads) after any number of account writes of a running Push, the accounts are either those from before the block or those after it, so that pushing the block again after a restart has the effect of one clean Push. [Violated; what holds instead: the accounts tree is always intact, accounts the block does not involve are never touched, each step changes at most one account, there are at most 4n+1 steps for n transactions, and there is never more money than before the push.]", "quantifier": "every reachable node, every block, every number k of account writes completed before the process dies", "why_tests_cant": "there is one crash point per account write and block, for every block; a test observes only completed calls", "anchors": ["accounts/accounts.go:39-60 Accounts.Push", "accounts/accounts.go:87-99 Accounts.PutAccount", "accounts/accounts.go:101-208 pushSenders, pushRecipients, createContracts, pruneAccounts"]}
{"id": "C119", "title": "Time taken by Unmarshal is linear in the input", "statement": "Decoding any byte string, successfully or not, takes at most a + b*n steps, where n is the length of the input and a, b depend on the target type only; on success only the bytes read count. A step is a call of the recursive decoder, a round of a loop in a custom decoder, or a byte copied. For the types of the protocol: any message 275 + 14n, a block 274 + 14n, a transaction 13 + n, an account 9 + n, a Merkle path 2 + 2n. So a length field that announces more than is there buys an attacker nothing.", "quantifier": "all byte strings, all target types whose slice elements take at least one byte (all protocol types do), all message types", "why_tests_cant": "a test measures a few inputs; the bound must hold for every input an adversary can send, including truncated ones and ones with false lengths", "anchors": ["beserial/decode.go: decodeState.value", "wire/block.go: BlockInterlink.UnmarshalBESerial", "wire/signature.go: MerklePath.UnmarshalBESerial", "wire/bitset.go: BitSet.UnmarshalBESerial", "wire/tx.go: WrapTx.UnmarshalBESerial", "wire/account.go: WrapAccount.UnmarshalBESerial", "wire/p2p.go: NetAddress.UnmarshalBESerial, PeerAddress.UnmarshalBESerial", "wire/msg_types.go: UnmarshalMessage"]}
{"id": "C120", "title": "What Unmarshal returns shares no memory with its input", "statement": "Unmarshal, and UnmarshalMessage, write to no memory that existed before the call, and every byte slice in the value they return is an array of its own, allocated during the call. So the buffer can be reused (for the next message, the next block of an archive) without changing a decoded value, whatever is written into it later; and a decoded value can be changed without changing the buffer, what the target variable referred to before, or another part of the same value.", "quantifier": "all byte strings at any place in any buffer, all earlier contents of the target variable, all target types built from the codec's kinds and the custom types of package wire, all message types, all later contents of the old memory", "why_tests_cant": "sharing shows only when somebody writes to the buffer afterwards, in the right place; a test has to guess the field and the write", "anchors": ["beserial/decode.go: decodeState.value, pop", "wire/bitset.go: BitSet.UnmarshalBESerial", "wire/signature.go: MerklePath.UnmarshalBESerial", "wire/block.go: BlockInterlink.UnmarshalBESerial", "wire/tx.go: WrapTx.UnmarshalBESerial", "wire/p2p.go: NetAddress.UnmarshalBESerial, PeerAddress.UnmarshalBESerial", "wire/msg_types.go: UnmarshalMessage"]}
{"id": "C121", "title": "What Marshal writes to", "statement": "Marshal(b, v) is append: whatever v is and whatever the outcome, it writes no byte of existing memory except behind len(b) within cap(b), and what it returns is b made longer, or a slice of an array that is new, or nil. If no slice of v reaches into that spare capacity, the outcome is that of the encoding and v is unchanged; with nil, or any b without spare capacity, this holds for every v. A value decoded from a buffer can be marshalled into buf[:0] of the same buffer. If the capacity suffices nothing is allocated; so of two values marshalled into the same b the second overwrites the first. MarshalMessage writes to no existing memory and returns a new array.", "quantifier": "all values of all types built from the codec's kinds and the custom types of package wire, all memory contents, all buffers (any offset, length, capacity), all ways the runtime may choose capacities, all message types", "why_tests_cant": "the outcome depends on where the value's slices lie relative to the buffer, and on capacities chosen by the runtime; tests start from nil buffers", "anchors": ["beserial/encode.go: Marshal, marshal", "wire/bitset.go: BitSet.MarshalBESerial", "wire/signature.go: MerklePath.MarshalBESerial", "wire/block.go: BlockInterlink.MarshalBESerial", "wire/tx.go: WrapTx.MarshalBESerial", "wire/account.go: WrapAccount.MarshalBESerial", "wire/p2p.go: NetAddress.MarshalBESerial, PeerAddress.MarshalBESerial", "wire/msg_types.go: MarshalMessage"]}
{"id": "C122", "title": "Order of the transactions in any block", "statement": "For every block, whatever its transactions (transfers, withdrawals from contracts, contract creations, prunes, wrapping amounts), putting the transactions in another order changes neither whether Push accepts the block nor any account nor the state hash afterwards, provided that for every address the last transaction creating a contract there stays the same; in particular if no two transactions create contracts at one address. If two do, both are executed and the last one decides the contract.", "quantifier": "all reachable states, all blocks, all permutations of the transactions", "why_tests_cant": "all permutations of arbitrary lists of transactions on arbitrary states; the documentation itself only says that reordering could theoretically matter", "anchors": ["accounts/accounts.go: Accounts (comment), Push, pushSenders, pushRecipients, createContracts, pruneAccounts", "wire/account.go: ApplyOutgoingTx"]}
{"id": "C123", "title": "The embedded genesis files are consistent under Blake2b-256", "statement": "The built-in profiles work with the hash function the code really uses: opening \"main\" or \"test\" and initialising a fresh node with it succeeds (no hash mismatch), leaves exactly the listed accounts and the reward of block 1, the state hash in the embedded block and the money the emission schedule prescribes at height 1; the replay program with a built-in profile therefore never fails before the first archived block, and the genesis_hash in the toml file is the digest of the embedded header.", "quantifier": "every toml configuration, working directory, map iteration order and archive; both built-in profiles, all their accounts; the hash function is Blake2b-256 as in RFC 7693", "why_tests_cant": "A test can initialise a profile once; that nothing else (directory contents, toml contents, iteration order, archive) influences the result, and that the root is the canonical Merkle-Patricia root of exactly those accounts, is a statement about all of them.", "anchors": ["genesis/genesis.go:OpenProfile", "genesis/genesis.go:InitAccounts", "genesis/files", "tree/node.go:Branch.Hash", "tree/node.go:Leaf.Hash", "cmd/gimiq/main.go:main"]}
{"id": "C124", "title": "A block with a nil transaction", "statement": "Push of a block built by hand in which some Tx is nil is refused without effect. (It is false: Push never accepts it, but it first debits the senders of all the transactions before the nil one, then panics; that money is gone.)", "quantifier": "every reachable ledger, every block, any number of transactions before and anything after the first nil one", "why_tests_cant": "A test tries one block; what is left behind is claimed for every prefix of transactions and every state.", "anchors": ["accounts/accounts.go:Accounts.Push", "accounts/accounts.go:pushSenders", "wire/tx.go:WrapTx"]}
{"id": "C125", "title": "Accounts of other types and foreign entries in the tree", "statement": "PutAccount takes any implementation of wire.Account and Accounts.Tree is exported. Whatever PutAccount accepts, GetAccount returns; entries that are not accounts do not disturb the rest of the ledger. (The first half is false for types the library does not know: the entry is stored, and GetAccount of it panics from then on.)", "quantifier": "every history of PutAccount with any implementations, direct tree writes and pushes; every address and block", "why_tests_cant": "Implementations of the interface and raw entries are unbounded; the exact set of readable entries and the independence of all other addresses need a proof.", "anchors": ["accounts/accounts.go:GetAccount", "accounts/accounts.go:PutAccount", "accounts/accounts.go:pushTx", "wire/account.go:Account", "wire/account.go:WrapAccount"]}
{"id": "C126", "title": "wire.Nibbles and tree.Nibbles are the same type in behaviour", "statement": "Package wire has its own Nibbles type. For every key and every two byte strings its KeyToNibbles, ToKey, Compress, HexBytes, CommonPrefix and PrefixOf have the results of the methods of tree.Nibbles, panics included; so ToKey inverts KeyToNibbles, PrefixOf is the prefix order and CommonPrefix the longest common prefix.", "quantifier": "all 20-byte keys, all byte strings of any length (nibbles or not)", "why_tests_cant": "The domain is all byte strings, and agreement of two implementations, including where they panic, is a statement about every one of them.", "anchors": ["wire/nibbles.go:KeyToNibbles", "wire/nibbles.go:ToKey", "wire/nibbles.go:Compress", "wire/nibbles.go:HexBytes", "wire/nibbles.go:CommonPrefix", "wire/nibbles.go:PrefixOf", "tree/store.go:KeyToNibbles"]}
{"id": "C127", "title": "What a transaction hands out is the caller's own", "statement": "AsTxContent, AsExtendedTx, GetSender and GetRecipient return the values the other properties speak of and leave the transaction unchanged, and what they return is the caller's: writing to it does not change the transaction, and later changes to the transaction do not change it. (True of the addresses in AsTxContent and AsExtendedTx and of GetSender of a basic transaction; false of GetRecipient, of GetSender of an extended transaction, of Data, and of Proof: AsExtendedTx of a basic transaction has the signature array itself as its proof, so signing the basic transaction again changes the proof of the extended one.)", "quantifier": "all transactions in any memory, all writes to any byte of what is returned, all later signatures", "why_tests_cant": "Aliasing is a statement about all later writes through any of the results; a test that does not write to them cannot see it.", "anchors": ["wire/tx_basic.go:AsExtendedTx", "wire/tx_basic.go:AsTxContent", "wire/tx_basic.go:GetSender", "wire/tx_basic.go:GetRecipient", "wire/tx_extended.go:AsExtendedTx", "wire/tx_extended.go:AsTxContent", "wire/tx_extended.go:GetSender", "wire/tx_extended.go:GetRecipient", "wallet/basic.go:SignBasicTx"]}
{"id": "C128", "title": "GetAccount while a block is pushed", "statement": "While one goroutine is inside Accounts.Push, other goroutines may call GetAccount on the same accounts (the store's methods are synchronised): each call returns, without error or panic, the account as it stands after a number of the account updates of that push, that number never decreases, and accounts the block does not touch read the same at all times. (As stated for several accounts together - that readers always find all the coins - it is false of the code: between the debit of the sender and the credit of the recipient the coins are in no account.)", "quantifier": "all hash functions, all reachable accounts, all blocks with any outcome of Push, all moments (calls of the store) at which readers look, all addresses", "why_tests_cant": "the interleavings of readers with the store calls of a push cannot be enumerated", "anchors": ["accounts/accounts.go:Push", "accounts/accounts.go:GetAccount", "accounts/accounts.go:PutAccount", "tree/tree.go:GetEntry", "tree/tree.go:PutEntry"]}
{"id": "C129", "title": "Changes on an overlay can be given up or written down", "statement": "Puts (or a block pushed) on a tree over an initialised OverlayStore can be written down with Flush, in whatever order the entries are visited, after which the lower store has the entries, accounts and hash that the same calls give without the overlay; or they can be given up by dropping the overlay, after which everything is as before the calls. (The second half is violated: the entries and accounts read as before, but Hash always is the hash of the state that was given up, and later PutEntry calls can panic.)", "quantifier": "all hash functions, all reachable trees and accounts (with overlays of any depth for the tree), all sequences of puts, all blocks with any outcome of Push, all visiting orders of Flush, all addresses read", "why_tests_cant": "the effect depends on which node objects the overlay and the lower store share, for every history and every block", "anchors": ["tree/store_overlay.go:OverlayStore", "tree/tree.go:PutEntry", "tree/tree.go:GetEntry", "tree/tree.go:Hash", "accounts/accounts.go:Push"]}
{"id": "C130", "title": "A block depends on nothing but the accounts it names", "statement": "Push reads and writes no account but the miner's and the senders' and recipients' of the block's transactions. On two nodes that agree on these accounts and differ arbitrarily elsewhere, pushing the block has the same outcome (the same error, if any) and leaves these accounts equal, and all others as they were. Consequently two blocks that name no common account can be pushed in either order, with the outcome each has alone and the same accounts and state hash at the end - even if one of them fails half-way.", "quantifier": "all hash functions, all pairs of reachable nodes, all blocks and pairs of blocks with disjoint accounts, whatever their outcome", "why_tests_cant": "Independence of everything else ranges over all other accounts' contents; a test compares two states at a time.", "anchors": ["accounts/accounts.go: Push, pushTx, createContract, pruneAccounts, pushInherents, GetAccount, PutAccount"]}
{"id": "C131", "title": "The hashing of a block is linear in its transactions", "statement": "The hashes a Push needs - tree nodes, addresses of public keys, Merkle paths in proofs - are bounded by the number of transactions alone (685 for each and 42 for the reward), independently of the number of accounts and of the lengths of data and proofs: outcome and final state are determined by the hash function's values at that many strings. Hypothesis: no string has the all-zero hash.", "quantifier": "all hash functions without the all-zero value, all reachable nodes, all blocks", "why_tests_cant": "It is a bound over all tree shapes and all proofs.", "anchors": ["accounts/accounts.go: Push", "tree/tree.go: updateHashes", "wire/signature.go: SignerAddress, ComputeRoot", "wire/account.go: ApplyOutgoingTx"]}
{"id": "C132", "title": "No empty contract stays in the state", "statement": "After a successful Push no account without money is left in the state (accounts.go says pruneAccounts fails if an empty account is not pruned). Violated: a contract created without value is stored, stays until something is sent from it, and its address can receive nothing. Exactly: an empty contract is there after a block iff nothing was sent from it and it was there before or the block created it without any money; so none appears if every creation carries money.", "quantifier": "all states, blocks, chains of blocks and addresses", "why_tests_cant": "Every state and every block, and chains of any length.", "anchors": ["accounts/accounts.go: pruneAccounts, createContract, PutAccount"]}
{"id": "C133", "title": "Nobody's money is seized by creating a contract", "statement": "A block takes nothing from an account that sends nothing. Violated: createContract accepts any recipient address and moves the balance found there into the new contract, so anyone can turn another's basic account into a contract of his own and then withdraw the money with his own signature. Apart from that it holds: an account that sends nothing and at whose address no contract is created keeps everything and gains what is sent to it (plus reward and fees for the miner).", "quantifier": "all states, blocks, addresses, victims, balances and keys", "why_tests_cant": "All states and balances; the attack is shown from every reachable state.", "anchors": ["accounts/accounts.go: createContract", "wire/account.go: Init, ApplyOutgoingTx"]}
{"id": "C134", "title": "Concurrent PutEntry calls on one tree are serialised", "statement": "If two goroutines call PutEntry on the same tree for different keys and the store's methods are each synchronised, then once both have returned the tree holds both entries and its hash is that of the mapping with both, as if the calls had been made one after the other.", "quantifier": "for all histories of the tree, all pairs of keys and values and all schedules of the two goroutines' store calls", "why_tests_cant": "the failing schedule is one in many and no test fixes it; the loss shows only in the hash, since both entries can still be read", "anchors": ["tree/tree.go: PMTree.PutEntry, updateEntry, update, updateHashes", "tree/store_mem.go: MemStore"]}
{"id": "C135", "title": "Transactions of other types", "statement": "wire.Tx is an interface that any program can implement. A block that contains a transaction of a foreign type whose methods agree with each other has the same effect, when pushed, as the block with the library's extended transaction of the same content.", "quantifier": "for all blocks, all mixtures of library and foreign transactions whose methods agree, all proofs, and all states", "why_tests_cant": "tests only have the library's two types; the property is about all implementations of the interface in all blocks and states", "anchors": ["wire/tx.go: Tx, WrapTx", "wire/account.go: VestingAccount.Init, ApplyOutgoingTx, HTLCAccount.Init, ApplyOutgoingTx", "accounts/accounts.go: Push, pushSenders, pushRecipients, createContracts, pruneAccounts, pushInherents"]}
{"id": "C136", "title": "wire.VestingCreation is the data of a vesting creation", "statement": "Marshalling a wire.VestingCreation gives data that a transaction creating a vesting contract may carry: a block that contains such a transaction can be accepted, and the contract belongs to the beneficiary named.", "quantifier": "all beneficiaries, all transactions carrying the marshalled value as data, all reachable nodes and all blocks", "why_tests_cant": "That no block with such data is ever accepted is a statement about all reachable states and all blocks; a test that pushes one block cannot tell a wrong layout from another fault of the block.", "anchors": ["wire/tx_data.go:VestingCreation", "accounts/vesting.go:VestingImpl.Init", "accounts/accounts.go:Push"]}
{"id": "C137", "title": "Hashes of tree nodes built by hand", "statement": "Hash of a tree.Branch or tree.Leaf built by the program never panics, and two nodes with the same hash are the same node (unless Blake2b collides on the two hashed strings); PutChild puts a child into the slot named by its suffix.", "quantifier": "all nodes a program can build with the exported fields (any bytes as nibbles, paths and suffixes of any length, any children in any slots, any values) and all hash functions", "why_tests_cant": "Whether two different nodes are hashed from the same bytes is a question about all pairs of nodes; tests compare a few.", "anchors": ["tree/node.go:Branch.Hash", "tree/node.go:Branch.PutChild", "tree/node.go:Leaf.MarshalTo", "tree/node.go:Leaf.Hash", "tree/store.go:Nibbles.HexBytes"]}
{"id": "C138", "title": "Types that contain themselves, declared byte types, unexported fields", "statement": "beserial codes every type a program can declare: Unmarshal returns on every input, without a panic, with a recursion no deeper than linear in the input; Marshal returns for every value; what is marshalled is decoded back and what is decoded has the bytes that were read.", "quantifier": "all finite or infinite families of (mutually recursive) type declarations over all kinds, with any tags, exported and unexported fields; all memories and values in them, all inputs", "why_tests_cant": "Tests try a few types and values; that recursion ends for every input and every declaration, and where it does not, is a statement about all of them.", "anchors": ["beserial/decode.go:value", "beserial/encode.go:marshal", "beserial/tags.go:parse"]}
{"id": "C139", "title": "Order and repetitions in the prune list", "statement": "What a block's list of pruned accounts does is decided by the last entry for every address: two blocks that are equal otherwise and whose lists have the same last entries are both accepted or both refused with the same error (only which of several wrongly listed addresses the error names may differ), and leave the same state, on every node. In particular a list without repeated addresses may be in any order, and an entry followed by a later one for the same address is ignored, whatever it quotes.", "quantifier": "every node state (no reachability assumed), every height, miner, list of transactions and pair of prune lists with the same last entries; every permutation of a list without repeated addresses; every set of superseded entries added", "why_tests_cant": "The pairs of lists, transactions and states are unbounded, and the error depends on Go's random map iteration.", "anchors": ["accounts/accounts.go:Push", "accounts/accounts.go:pruneAccounts"]}
{"id": "C140", "title": "Several goroutines push blocks at the same time", "statement": "When several goroutines call Push on the same ledger at the same time, every call returns, and the outcome is that of pushing the blocks one after the other in some order.", "quantifier": "every reachable node state, every family of blocks (one per goroutine), and every schedule of the goroutines' account reads, account writes and reward queries (each of these taken to be atomic)", "why_tests_cant": "There are unboundedly many schedules, blocks and states; a test observes the few the scheduler happens to pick.", "anchors": ["accounts/accounts.go:Push", "accounts/accounts.go:GetAccount", "accounts/accounts.go:PutAccount", "accounts/accounts.go:createContract", "accounts/accounts.go:pruneAccounts"]}
{"id": "C141", "title": "Candidate blocks tried on several overlays over one store do not disturb each other", "statement": "When several OverlayStores are laid over one store, with a tree (or an Accounts value) on each, and blocks or entries are put on them in any order, every call returns what it would return if its overlay were the only one, every tree shows exactly what was put on it on top of the shared store, and Hash of each tree is the hash of what that tree shows.", "quantifier": "every store reached by any history of puts, overlays and flushes, any number of overlays over it, every interleaved sequence of PutEntry calls or of Push calls on them, every key and value, every hash function", "why_tests_cant": "The overlays share branch objects with the store below; whether a later call trips over what another candidate left there depends on the keys of all candidates and on the order, of which there are unboundedly many.", "anchors": ["tree/store_overlay.go:OverlayStore", "tree/store_overlay.go:GetNode", "tree/tree.go:PutEntry", "tree/tree.go:GetEntry", "tree/tree.go:Hash", "accounts/accounts.go:Push", "accounts/accounts.go:GetAccount"]}
{"id": "C142", "title": "Decoding does not depend on whether int has 32 or 64 bits", "statement": "Unmarshal and UnmarshalMessage return the same value, the same number of bytes read and the same error on platforms whose int has 32 bits and on those whose int has 64 bits.", "quantifier": "every type, every value decoded into, every input that fits into the memory of both platforms; for the types of package wire and package genesis and for UnmarshalMessage every input of any length", "why_tests_cant": "The bound on lengths, maxInt, is a constant of the platform: a test run exercises one platform only, and the two differ only on particular lengths among unboundedly many inputs and types.", "anchors": ["beserial/decode.go:maxInt", "beserial/decode.go:value", "beserial/decode.go:Unmarshal", "wire/msg_types.go:UnmarshalMessage", "wire/msg_p2p.go:VersionMessage"]}
{"id": "C143", "title": "The store below an overlay while the overlay is being flushed", "statement": "When puts, or a block pushed by Accounts.Push, are written down from an overlay with Flush, then whoever reads the store below meanwhile, or finds in it what a crash in the middle of Flush has left, gets for every entry and every account the value from before or the value from after, never an error; each changes once; and all of them are from before or all are from after.", "quantifier": "every tree and every accounts state reached by any history, every sequence of puts and every block, every order in which Flush visits the map, every moment of it, every key and address, every hash function", "why_tests_cant": "Flush visits its map in an order that Go picks at random and differently in every run; the number of orders is factorial in the number of nodes, and a test cannot stop Flush in between.", "anchors": ["tree/store_overlay.go:Flush", "tree/store_overlay.go:PutNode", "tree/tree.go:GetEntry", "accounts/accounts.go:Push", "accounts/accounts.go:GetAccount"]}
{"id": "C144", "title": "Size on platforms of different int", "statement": "On 32-bit and on 64-bit platforms Size(v) is the number of bytes that Marshal writes for v, or an error, never another number; and MarshalMessage, which makes its buffer with it, does the same on both.", "quantifier": "all types whose custom methods agree with size.go, all values, including those in which slices share memory so that the encoding is longer than any int; every message, every width of int", "why_tests_cant": "The sums in size.go wrap around silently; a test runs with one width of int and cannot hold values whose encoding has 2^31 or 2^63 bytes.", "anchors": ["beserial/size.go:Size", "beserial/size.go:valueSize", "wire/msg_types.go:MarshalMessage"]}
{"id": "C145", "title": "Texts of errors", "statement": "From the text of an error that Push returns one can tell which error it is and read its data - amounts, account types, address - and no two such errors have the same text; an invalid prune names the address as people write it; the text of an unknown message error shows the message type in hexadecimal.", "quantifier": "all amounts, types, 20-byte addresses; all 2^64 message types", "why_tests_cant": "Universal over all data in the errors: that no two of them look the same, and that every message type, including those from 2^63 on, is shown as it is.", "anchors": ["accounts/accounts.go:AccountTypeMismatchError.Error", "accounts/accounts.go:InvalidForRecipientError.Error", "accounts/accounts.go:InvalidForSenderError.Error", "accounts/accounts.go:InvalidPruneError.Error", "wire/account.go:OverspendError.Error", "wire/msg_types.go:UnknownMessageError.Error"]}
{"id": "C146", "title": "Size of declared types", "statement": "For every type a program declares and every value in memory, Size returns, and returns the number of bytes Marshal appends for the value, or an error if Marshal returns one.", "quantifier": "all families of (mutually recursive) type declarations over all kinds with any tags; all memories and all values in them", "why_tests_cant": "Tests try a few types; that the shortcut for numbers and the walk agree with the encoder for every declaration, and where Size does not return, is a statement about all of them.", "anchors": ["beserial/size.go:Size", "beserial/size.go:valueSize", "beserial/size.go:sizeNumber"]}
