{
 "C01": "refinement of the pointer heap to the canonical compressed tree of the abstract map; induction over the puts",
 "C02": "as C01; the returned flag is compared with the abstract map before the put",
 "C03": "the canonical tree is a function of the map; hashes are a function of the canonical tree",
 "C04": "cached hashes invariant: every cached hash is zero or right, `updateHashes` makes the path right",
 "C05": "injectivity of the node layouts; collision extracted along the recursion as a pair of listed strings",
 "C06": "the store invariant is an equality of the set of stored nodes with the canonical ones; counting",
 "C07": "every partial operation is `none` in the model, including running out of fuel; shown unreachable",
 "C08": "list induction",
 "C09": "list induction",
 "C10": "refutation: exact panic set",
 "C11": "induction over operations and over the flush order (a permutation)",
 "C12": "refutation by a run for every key and value; the true part by the frame of the put",
 "C13": "C01 for stacks of overlays",
 "C14": "refutation",
 "C15": "base-32 round trip, mod 97 arithmetic",
 "C16": "layout, injectivity from C15",
 "C17": "exact acceptance condition by cases on the length and the characters",
 "C18": "refutation and exact rule",
 "C19": "refutation and exact rule",
 "C20": "Horner evaluation of the digit string equals the remainder; induction over the string with the 6-digit chunks of the code",
 "C21": "gcd argument mod 97 on the weight of the changed digits",
 "C22": "exhaustive over pairs of characters (kernel), lifted to all positions by multiplicativity",
 "C23": "refinement to a recursion over Nat; uint64 cannot wrap",
 "C24": "cache invariant: a prefix of the supply sequence",
 "C25": "small-step interleaving of any number of goroutines; invariant over the lock and the program counters",
 "C26": "from C24",
 "C27": "certified fixed-point bounds of the remaining supply around the tail switch",
 "C28": "as C27",
 "C29": "structural induction over the type universe, law record for custom codecs",
 "C30": "as C29",
 "C31": "as C29",
 "C32": "structural induction; refutations by values",
 "C33": "structural induction; refutation below nil pointers",
 "C34": "as C33",
 "C35": "the decoder takes the allocation predicate as a parameter",
 "C36": "refutation for all over-long slices",
 "C37": "from C29 and C30",
 "C38": "fuel-free recursion over the tag string",
 "C39": "instance of C29/C30 plus the type byte",
 "C40": "as C39",
 "C41": "instances per message type, refutations",
 "C42": "exact sets",
 "C43": "exact set of panicking inputs",
 "C44": "cases on the type id",
 "C45": "exact result of the decoder with its off-by-one order of slicing and copying",
 "C46": "uint8 arithmetic of (len+7)/8",
 "C47": "cases",
 "C48": "refutation for all values",
 "C49": "layout injectivity with the length prefix modulo 2^16",
 "C50": "scheme correctness is a hypothesis",
 "C51": "as C50",
 "C52": "induction over the path; explicit collision",
 "C53": "digits base 256",
 "C54": "refinement of the tree to a map of accounts",
 "C55": "totals over all 2^160 addresses as a Finset sum; per-phase lemmas; refutations",
 "C56": "refutation; the two cases where it holds",
 "C57": "per-step debit lemmas; refutations",
 "C58": "frame lemma for every phase, also for failing pushes",
 "C59": "association-list map, arbitrary first key of a map iteration",
 "C60": "float64 as correctly rounded 53-bit arithmetic over the rationals; monotonicity and error bounds of rounding",
 "C61": "decoding of the proof layouts as an equivalence; refutation of the pre-image clause",
 "C62": "relation between blocks that differ in signatures only; refutation",
 "C63": "layouts of the creation data as an equivalence",
 "C64": "classification of all panics; refutations",
 "C65": "refutation for 0xFF; the rest by cases",
 "C66": "permutation invariance of sums and maps",
 "C67": "from C03",
 "C68": "composition of puts, push and hash",
 "C69": "induction over the archive entries",
 "C70": "model of the python exporter and of the reader; refutations",
 "C71": "cases on the argument",
 "C72": "refutation",
 "C73": "refutation for all non-empty chunks",
 "C74": "instance of C29",
 "C75": "cases over the message types",
 "C76": "composition of the phases of Push",
 "C77": "induction over the chain with the emission schedule",
 "C78": "cases",
 "C79": "refutation for any notion of block hash",
 "C80": "C05 applied to the final trees",
 "C81": "the curve is computed exactly: packed lanes, certified chunk by chunk by the kernel (`decide +kernel`), glued by an induction",
 "C82": "chain of any length by induction; refutation",
 "C83": "relation between blocks; chain of any length; refutation",
 "C84": "list lengths; soundness of Size",
 "C85": "cases",
 "C86": "explicit inverse of the ledger function, by cases on the push",
 "C87": "explicit block, single-transaction push computed",
 "C88": "float rounding bounds; definitional independence of the total",
 "C89": "decoding computed on symbolic bytes, induction on the archive",
 "C90": "round trip of blocks, induction on the chain, C69",
 "C91": "from round trip and canonicity",
 "C92": "mod 97 arithmetic",
 "C93": "Model: Tree/SliceModel.lean, tree.go over slice headers and backing arrays, growth of `append` a parameter. Simulation relation to a view with immutable prefixes (Tree/Slices.lean: every stored prefix reads as its path, arrays of different live branches are disjoint), preserved by every operation; then the invariant of C01-C07 carries over (Tree/SliceProps.lean).",
 "C94": "Same model; a caller's write is an update of a cell of the value arrays. The violation is proved for every reachable tree, every put that changes the entry and every changed byte.",
 "C95": "Case analysis; the encodings by C40.",
 "C96": "Spec: the inductive predicate Culprit (Accounts/Errors.lean), one constructor per kind of error. Inversion of every phase for the error case; the decoder's errors for the contract types by induction over the type.",
 "C97": "updateHashes with a log of hashed strings (Cost.lean); erasure and completeness of the log by induction; the number of visited nodes is bounded by induction on the depth from the description of what update invalidates.",
 "C98": "Mutual induction over the type universe; the model's decoder takes the old value as an argument. The exact statements for the header and the block say which single field is carried over.",
 "C99": "Mutual induction over the type universe on the encoder run on the zero value; the way back is the round-trip theorem C29.",
 "C100": "Interleaving model of goroutines stepping through compare, store and load of the cache in chunks; invariants over schedules, and an explicit two-goroutine schedule for the violation.",
 "C101": "`alloc` (Beserial/AllocModel.lean) runs beside the decoder and counts the requests at each of its allocation sites; each own decoder of package wire has its count. By induction over the type the count is at most `fixedMem t + perByte t * n`, with the coefficients read off the type; slices use that each element reads at least one byte. Then the coefficients of all protocol types are evaluated.; `C101_exact`: on success the count is exactly the memory behind the value",
 "C102": "The functions of tree.go are run over an abstract store (StoreImpl.lean: a state machine for GetNode, PutNode, DelNode). A simulation (StoreSim.lean) relates any pointer-keeping store to the MemStore model, step by step through update, prune, invalidatePath and updateHashes, and carries the theorems of C01-C05 over. For the copying store an invariant (root with the first leaf as only child, a leaf for every key) is kept by every put below the same digit; the hash of such a state is computed through the view-level correctness theorem.",
 "C103": "tree.go runs over a MemStore that writes down the whole state (nodes, store) before and after each of its calls (Interrupt.lean, an instance of the abstract store of C102). An invariant of all intermediate states (branch prefixes have fewer than 40 digits; the leaf of each key is the old one, or the new one for the key being put) is proved through every function. For the violation: the first write of every update is the leaf; from the state after it the retry is computed. Tree/Broken.lean: C103_delete_violated - after an interrupted deletion a later put of a neighbouring key panics.",
 "C104": "flushStates lists the states between the steps of Flush; by induction over the visiting order every one of them answers as the overlay did (an entry that is already written down and not yet deleted is written again with the same node), and flush_spec of C11 finishes from there.",
 "C105": "Account objects of the process as a list (position 0 is InitialAccount), pointers are positions; the code of accounts.go is run over a ledger that dereferences. Simulation with the map of accounts in which missing accounts read as whatever position 0 holds; for the initial value this is the usual map.",
 "C106": "tracing store: the states at all store accesses of a sequence of puts; invariant that leaves are immutable and that the new entry, once visible, stays visible; the counter of effective puts is monotone along the timeline",
 "C107": "the state between updateEntry and updateHashes from the specification of update; injectivity of the node encoding; every hash in the encoding of a mapping is a value of the hash function",
 "C108": "A wrapper counts the calls of an arbitrary store (`counted`); a cost logic (`CostM`) relates the tree over it to the tree over a MemStore: `update` makes one call a level and at most three at the end and succeeds within 41 levels (`upd_spec`, `update_more`), `updateHashes` makes at most two calls a string hashed (`putEntryL_cost`, C97).",
 "C109": "accounts.go is modelled over an abstract ledger; a ledger on the tree over an arbitrary store (`storeLedger`) simulates the one on the MemStore tree step by step (`same_ledger`, from C102's simulation), hence all answers agree.",
 "C110": "The ledger over a counting store (C108): one call a GetAccount, 128 a PutAccount; a unary cost logic (`AtMost`) over the code of accounts.go.",
 "C111": "Layouts written out with big-endian digits; the generic codec's canonicity theorem (C37) turns acceptance into the specified encoding, which is then computed; the block adds the complete description of the interlink decoder.",
 "C112": "The embedded files are written into generated modules (tools/gen_genesis.py) as the numbers whose base 256 digits they are; the kernel takes the numbers apart (comparing products and sums), checks that the addresses are distinct and adds the balances; C78 and C111 turn this into the decoder's answer, C68 into the behaviour of InitAccounts.",
 "C113": "Process with a tree per ledger and one cache; a bisimulation between nodes with the same tree and arbitrary reachable caches, lifted through Push by the generic simulation lemma; goroutines by a ledger whose cache is replaced by an arbitrary reachable one before each access.",
 "C114": "Counting copies of the functions, proved to erase to the model; amortised bound by induction on the history with the cache invariant of C24.",
 "C115": "All of `Int`, with `big.Int.Bytes` of the absolute value and Euclidean `Div`; exact panic set, exact range (iff), and for every number the collision with its negative and with its 256^256 multiple.",
 "C116": "`Wire/WalletAny.lean`: slices as nil or (bytes, spare capacity); C116_same shows that on well-formed wallets the code is that of the other properties; panic conditions by cases; history by induction.",
 "C117": "Two environments with the same hash and arbitrary `pick`/`conv`; lock-step induction over the code of Push on the account map, lifted to nodes by the simulation theorem; the split is a theorem for every such contract.",
 "C118": "`PushUntil E k` runs the code of Push over `dying`, a ledger that stops at write k+1 (Accounts/Crash.lean). A triple `Safe` over all interruption points gives the frame and the money bound on the map ledger; simulation carries it to the tree. `Stepwise` relates the runs with k and k+1 writes.",
 "C119": "`work` counts steps beside `decode`; linear bound by mutual induction over types, with a clause for the bytes read on success; each custom decoder is shown to keep its own bound; `C119_exact`: on success the count is exactly the number of parts of the value",
 "C120": "model the decoder with a heap of byte arrays (slices are references, pop keeps referring to the input), prove by induction over the type that it refines the memoryless decoder, that the old heap is a prefix of the new one and that all references in the result are to distinct arrays beyond it",
 "C121": "Beserial/HeapModel.lean describes every encoder by the list of its appends and runs the list on a heap of byte arrays with Go's append (in place within the capacity, else a new array with a capacity chosen by an arbitrary function). Beserial/Append.lean proves by induction over the list that only spare capacity is written, and by induction over the type that the appends are those of the model without memory; Wire/Append.lean does the custom types and messages. The condition on spare capacity is shown to be needed by an example.",
 "C122": "Adjacent transpositions of the sender phase (two debits of one account commute, for all three account types), then push_iff.",
 "C123": "Blake2b-256 is defined after RFC 7693; a kernel friendly version and a kernel friendly Merkle-Patricia root over explicit rows are proved equal to the specifications for all inputs, and the kernel evaluates them on the embedded files (16 subtrees per profile). C112_init then loses its hypothesis.",
 "C124": "`pushHand` is the code of Push over a list of optional transactions, panicking where a method is called on nil (Accounts/Handmade.lean). With a nil one it is the senders' loop over the prefix followed by a panic; related to `PushUntil` of C118 by counting the writes of that loop.",
 "C125": "`Node.putAny` models PutAccount over an arbitrary type byte, emptiness and marshaller; `FReach` adds raw tree writes (Accounts/Foreign.lean). A ledger on byte entries (`rawLedger`) simulates the tree; a simulation restricted to the involved addresses relates it to the plain map; `Stuck` shows unreadable entries stay and block success.",
 "C126": "`Wire/Nibbles.lean`: index-level model of every method; loop invariants relate the buffers to the recursive definitions of `Tree/Nibbles.lean`.",
 "C127": "`Wire/Views.lean`: transactions as references into a heap of byte arrays; array assignment allocates, slice and pointer assignment shares.",
 "C128": "Push is shown to be a program (free monad, Accounts/Prog) over GetAccount/PutAccount/reward; running it on a ledger that records its tree writes gives the sequence of PutEntry calls, to which the reader theorem of C106 applies; decoded with C40.",
 "C129": "An invariant over the heap (leaves of the starting state are never written to; the root branch object stays the root's) through all functions of tree.go; Push reduced to its writes with Accounts/Prog.",
 "C130": "Push is a program over GetAccount, PutAccount and BlockReward whose accesses all lie within the named accounts (`HasProgIn`); induction over programs gives locality and frame, and commutation follows. Accounts/Local.lean.",
 "C131": "Query sets (`Asks`, `Work`) compose through the monad; C97's log gives 42 per PutEntry, a decoded Merkle path has at most 255 hashes. Accounts/HashWork.lean.",
 "C132": "Accounts/Empty.lean: EmptyContract is read off the account after the push with push_iff; by cases on whether the address is a sender, had a contract (C59_contract) or got one (C63_created); chains by induction.",
 "C133": "Accounts/Empty.lean: create_push computes a block with one creation in any state; the second step is C87_htlc_refund; the positive part follows from push_iff.",
 "C134": "The store is a MemStore with a counter: when it reaches zero the whole of the second PutEntry runs before the first one's next store call. The first put is run symbolically on a reachable tree with a free slot at the root; the root it leaves is the one the first put alone would leave, so its hash follows from the sequential theorem; the state is Settled as in C103.",
 "C135": "Push once more over transactions given by what their methods return and by the result of the type assertion; on the library's two types it is the model of Push (C135_own). Relation: the first computation does what the second does or panics, closed under bind and loops; a loop panics when one step of it does where the other's does not.",
 "C136": "wire.VestingCreation as a type of the codec model; round trip from C29, refusal from the layouts of C63 and the acceptance conditions of C50ff.",
 "C137": "node.go over raw bytes (Tree/HandNodes.lean); the hashed strings in closed form by induction over the loops, then inverted: digits are at least 48, the count is at most 16, so the end of the path is visible.",
 "C138": "The two walks with a bound on the depth over types with names; values to encode are graphs of cells. Inductive relation Enc as specification; mutual induction over its derivations one way, over the bound the other way; lexicographic measure (bytes left, rank, type) for termination. C138_same_decoder/_encoder (RecSame.lean): on types without names and methods both walks equal those of Model.lean, by mutual induction over the types; the translation of values is injective (C138_same_values). C138_marshal_returns: induction over the finite value, with monotonicity in the bound (RecTotal.lean). C138_unique, C138_truncated, C138_stream, C138_deterministic: from the round trip, and by induction over the derivations of Enc (RecPrefix.lean).",
 "C139": "The loop over the transactions is run on two maps that answer alike (induction over the transactions, for any ledger); the map built from a list answers with the last entry (pruneMap_get).",
 "C140": "Push is written as a program over the three ledger operations (Prog.push) and proved equal to the model of Push when run alone (run_push); goroutines take turns between operations (interleave). For disjoint blocks an invariant relates every goroutine's remaining program, run from the current accounts, to its run alone; the violation is a schedule that reads, lets the other block run, and continues.",
 "C141": "Trees on overlays share one heap (Family, Candidates). Since the branches of all trees but the first fit no longer, the invariant speaks of leaves only: leaf objects never change, and a put on a tree of any shape, if it returns, stores or removes exactly one leaf and returns the right answer (any_put, by induction on the recursion of Update and UpdateHashes). Push is a program over the ledger operations (Prog); by induction over programs a push that does not panic does what it does on a map. The panics come from left_slot and orphan_panics_any: a root slot that leads to a node which only the other overlay has.",
 "C142": "The largest int is a parameter of decoding (decodeAt, a second transcription of decode.go:60-214). A length that only one platform rejects exceeds the rest of the input, so the other one rejects it as well, at the same place (readLen_cases); the rest is by induction over types (decode_agree). Lengths of one or two bytes never reach maxInt (readLen_short); that all protocol types have such lengths is evaluated in the kernel (wireTypes_short).",
 "C143": "The states of Flush are those of C104 (flushStates). By induction over the order, the lower store in the i-th state answers from the first (i+1)/2 entries, else as before (flushStates_lower); GetEntry looks at one leaf, leaves never change (Kept.leaf of C129), so it answers like the tree on the overlay or like the old tree (midFlush_spec). Orders that put a given set first give the violations. Push on an overlay is C129's tentative_spec; the payment is computed with C76.",
 "C144": "Every addition and multiplication of size.go is repeated in an int of w bits (valueSizeAt, a second transcription of size.go:21-96); by induction over types it is the unbounded one, wrapped once (valueSizeAt_eq), so C32 carries over. Messages: the sizes that size.go computes for each kind are at most 146 or 5 + 32 per locator (message_sizes).",
 "C145": "The Error methods and the verbs of fmt that they use are written out (Accounts/Texts.lean): unsigned decimal, signed hexadecimal, a pointer to an array under %x, which prints an ampersand and the digits. Kinds are told apart by their first 13 characters, numbers end at the first non-digit, addresses have a fixed length; the address in a prune error comes back by C15. Assumed: that fmt does this.",
 "C146": "size.go over the types and memories of Rec.lean, with a bound on the depth; induction over the derivations of Enc (enc_size); arrays and slices of numbers by kind_encAll. Agreement with Model.lean by mutual induction over types. The cyclic case: strong induction over the bound one way, over the list the other way. C146_returns: induction over the finite value, with monotonicity in the bound (RecSizeTotal.lean). C146_sound: mutual induction over the typing of the value (RecSound.lean)."
}