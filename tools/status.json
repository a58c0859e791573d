{
 "C01": [
  "proved",
  "Heap model with node pointers mutated in place; C01_final_last and C01_final_never spell out the specification function."
 ],
 "C02": [
  "proved",
  ""
 ],
 "C03": [
  "proved",
  ""
 ],
 "C04": [
  "proved",
  "For every hash function, including ones that return the zero hash the code uses as its 'dirty' mark."
 ],
 "C05": [
  "proved",
  "Explicit collision between listed byte strings; C05_binding_no_collision when no two strings of the two trees collide."
 ],
 "C06": [
  "proved",
  "Exact set of stored nodes, exact child slots, and the 2n+1 bound."
 ],
 "C07": [
  "proved",
  "Also excludes non-termination: running out of fuel counts as a panic in the model."
 ],
 "C08": [
  "proved",
  ""
 ],
 "C09": [
  "proved",
  ""
 ],
 "C10": [
  "partial",
  "Violated: Compress panics on every non-empty list (C10_compress_violated); C10 partial covers the empty list."
 ],
 "C11": [
  "proved",
  "All operation sequences and all map iteration orders."
 ],
 "C12": [
  "partial",
  "Violated: C12_violated shows the lower store's root node changing before any Flush, for every key and value; C12_partial: the lower path-to-pointer map does stay the same."
 ],
 "C13": [
  "proved",
  "Any nesting of overlays, pushes and flushes interleaved with puts."
 ],
 "C14": [
  "partial",
  "Violated: C14_violated (every write panics), C14_putEntry_panics."
 ],
 "C15": [
  "proved",
  ""
 ],
 "C16": [
  "proved",
  ""
 ],
 "C17": [
  "proved",
  "encoding/base32 is modelled by its contract on whole groups (Model.lean)."
 ],
 "C18": [
  "partial",
  "Violated by the code for strings ending in a space (C18_trailing_space_violated); holds otherwise (C18_spaces_partial)."
 ],
 "C19": [
  "partial",
  "Violated: && for || accepts any header with one of the two letters (C19_country_code_violated); the weaker rejection is C19_country_code_partial."
 ],
 "C20": [
  "proved",
  ""
 ],
 "C21": [
  "proved",
  ""
 ],
 "C22": [
  "proved",
  "Characterises exactly which adjacent transpositions in the data part are undetected."
 ],
 "C23": [
  "proved",
  "uint64 emission formula equals the Nat specification, bounded by the cap, monotone."
 ],
 "C24": [
  "proved",
  "For every reachable cache state and every uint32 height, including 2^32-1 (where height+1 wraps; correct only because emission has ended)."
 ],
 "C25": [
  "proved",
  "Interleaving model of the mutex protocol: results, lock discipline, deadlock freedom, bounded steps. The Go memory model is represented by sequentially consistent steps between lock operations."
 ],
 "C26": [
  "proved",
  ""
 ],
 "C27": [
  "proved",
  "Uses certified fixed-point bounds on the remaining supply at the emission tail switch."
 ],
 "C28": [
  "proved",
  "Explicit end height 52,890,010."
 ],
 "C29": [
  "proved",
  "For every type of the universe (numbers, bool, string, arrays, slices, pointers, structs with tags, lawful custom types); slice elements must take at least one byte, because the decoder compares the length with the remaining bytes (see C31_zero_size_elements_exception)."
 ],
 "C30": [
  "proved",
  "Same universe as C29."
 ],
 "C31": [
  "proved",
  "The count holds for all types including unlawful custom decoders; prefix dependence under C29's condition on slice elements, with the exception exhibited."
 ],
 "C32": [
  "partial",
  "Soundness proved (custom types must have an exact generic size; see C32_size_sound_violated for EmptyMessage); completeness is false for bools and custom types, proved for the rest."
 ],
 "C33": [
  "partial",
  "False below failing pointers (witness for every prefix and value); proved for values whose pointer targets are encodable, hence for all pointer-free types."
 ],
 "C34": [
  "partial",
  "False below pointers (witness); exact characterisation of success and error otherwise."
 ],
 "C35": [
  "proved",
  "Allocation limit is a parameter of the decoder: no panic even if nothing longer than the input can be allocated."
 ],
 "C36": [
  "partial",
  "False for every over-long byte slice with an 8, 16 or 32 bit tag; the fitting case is proved."
 ],
 "C37": [
  "proved",
  ""
 ],
 "C38": [
  "proved",
  ""
 ],
 "C71": [
  "proved",
  ""
 ],
 "C39": [
  "proved",
  "round trip, canonicity, unknown types, no panic"
 ],
 "C40": [
  "proved",
  "round trip, canonicity, unknown types, fixed lengths"
 ],
 "C41": [
  "partial",
  "True for every sendable message except HeaderMessage and GetTxReceipts (violated, proved). GetTxProof with addresses cannot be sent (C42)."
 ],
 "C42": [
  "partial",
  "Violated; exact set of sendable messages and of receivable types proved"
 ],
 "C43": [
  "partial",
  "Violated; exact set of panicking inputs proved"
 ],
 "C44": [
  "partial",
  "Violated exactly for type 7"
 ],
 "C45": [
  "partial",
  "Violated; exact result of decoding an interlink proved, blocks without interlink hashes round-trip"
 ],
 "C46": [
  "partial",
  "Violated for 249..255 declared bits; holds for 0..248"
 ],
 "C47": [
  "partial",
  "Violated for every IPv6 address; holds for IPv4"
 ],
 "C48": [
  "partial",
  "Violated for every peer address and every input; header alone round-trips for IPv4"
 ],
 "C49": [
  "proved",
  "injective for every length of data, including lengths over 65535 where the length prefix wraps"
 ],
 "C50": [
  "proved",
  ""
 ],
 "C51": [
  "proved",
  "for any signature scheme whose own signatures verify"
 ],
 "C52": [
  "proved",
  "collision alternative explicit; paths with 249..255 branches crash (C52_decoded_violated)"
 ],
 "C53": [
  "proved",
  "panic set, value, monotonicity, exact values; also DifficultyToCompact"
 ],
 "C72": [
  "partial",
  "First half proved; second half violated"
 ],
 "C73": [
  "partial",
  "Violated; only the empty chunk works"
 ],
 "C74": [
  "proved",
  ""
 ],
 "C75": [
  "proved",
  ""
 ],
 "C54": [
  "proved",
  ""
 ],
 "C55": [
  "partial",
  "Violated in general (C55_wrap_violated: from every state; also C57_vesting_violated); proved without overflow and with basic senders; exact result modulo 2^64 for every block"
 ],
 "C57": [
  "partial",
  "Violated for basic accounts when value+fee wraps (C55_wrap_violated) and for vesting accounts (C57_vesting_violated); proved for HTLCs and for basic accounts without wrapping"
 ],
 "C58": [
  "proved",
  ""
 ],
 "C67": [
  "proved",
  ""
 ],
 "C66": [
  "proved",
  ""
 ],
 "C76": [
  "proved",
  ""
 ],
 "C77": [
  "partial",
  "exactly for chains whose senders are basic accounts or HTLCs and whose value+fee does not wrap; modulo 2^64 for all chains without the sender type 0xFF; past block 52,888,984 the total is the cap"
 ],
 "C60": [
  "proved",
  "exact debit rule; block version; monotone below 2^63 (beyond, Go leaves the conversion open); exact at whole steps; error bound elsewhere"
 ],
 "C61": [
  "partial",
  "Debit rules proved as an equivalence; pre-image clause violated for every contract (C61_preimage_violated)"
 ],
 "C63": [
  "proved",
  ""
 ],
 "C65": [
  "partial",
  "Violated for 0xFF (C65_bypass_violated); holds for every other declared type"
 ],
 "C56": [
  "partial",
  "Violated (C56_violated); holds for blocks without transactions and when the first debit fails"
 ],
 "C59": [
  "proved",
  "also: the accepted prune list is unique, map iteration order is invisible but for the address named in an error"
 ],
 "C62": [
  "partial",
  "Violated: C62_signatures_ignored_violated (no signature matters for any block) and C62_theft_violated (no proof needed at all for basic accounts)"
 ],
 "C64": [
  "partial",
  "Violated (four kinds of witnesses); proved when these are excluded, with the sharp bound of 8065 proof bytes"
 ],
 "C68": [
  "proved",
  "InitAccounts succeeds iff push and root hash agree; exact result for blocks without transactions"
 ],
 "C69": [
  "proved",
  "iff; the program otherwise panics; complete_run is a run replaying two blocks"
 ],
 "C70": [
  "partial",
  "violated at both ends of the range and in the order of out-of-order batches (C70_last_violated, C70_order_violated, C70_ends_ignored_violated); the export's content and the replay of in-order exports are proved exactly"
 ],
 "C78": [
  "proved",
  "files are parameters; toml decoding is not modelled"
 ],
 "C79": [
  "partial",
  "violated: C79_violated shows that a wrong configured hash is accepted, for every notion of block hash"
 ],
 "C80": [
  "proved",
  "the collision is among the strings hashed for the two states"
 ],
 "C81": [
  "proved",
  "the emission curve is computed exactly by the kernel (Policy/Lanes.lean, Policy/Chunks.lean); no sampled heights"
 ],
 "C82": [
  "partial",
  "Violated (C82_repeated_withdrawal_violated: any number of repetitions, any heights); proved for contracts without steps"
 ],
 "C83": [
  "partial",
  "Violated: C83_validity_network_ignored_violated (for all blocks), C83_replayed_violated (any number of repetitions). No part of the property holds."
 ],
 "C84": [
  "proved",
  ""
 ],
 "C85": [
  "proved",
  "The values of the service flags differ from those of the Nimiq protocol (Nano is 2, not 1), which is not a property of this repository alone."
 ],
 "C86": [
  "partial",
  "False of the code as stated: Revert panics on every call (C86_revert_violated). Proved instead: the state before is a function of the block and the state after (explicit undo), so push and chains are injective on account states."
 ],
 "C87": [
  "proved",
  "Signatures are not verified by the code (C50), so any 64 bytes serve as the signature; the theorems hold for all of them."
 ],
 "C88": [
  "partial",
  "False of the code: money is released between the steps (C88_between_steps_violated) and VestingTotalAmount is never consulted (C88_total_ignored_violated). What the code does release is exactly characterised by C60."
 ],
 "C89": [
  "partial",
  "False of the code: C89_links_violated (any replacement of the other header bytes leaves the replay's result and final state unchanged) and C89_heights_violated (any sequence of nonzero heights is replayed). What is checked is exactly C69."
 ],
 "C90": [
  "proved",
  "The interlink's hashes are decoded shifted (C45), which a replay does not look at."
 ],
 "C91": [
  "proved",
  ""
 ],
 "C92": [
  "partial",
  "False of the code (C92_one_spelling_violated). The aliases with two check digits are exactly C92_aliases; headers with letters in place of the check digits or with another country letter are covered by C17 and C19."
 ],
 "C93": [
  "proved",
  "Writes by callers are C94."
 ],
 "C94": [
  "partial",
  "False of the code: PutEntry keeps and GetEntry returns the very slice (C94_same_slice), so any write that changes a byte of it changes what GetEntry returns while Hash stays the old one (C94_violated). Callers that never write are safe: C93."
 ],
 "C95": [
  "proved",
  ""
 ],
 "C96": [
  "proved",
  "The amount a basic account is asked for is value plus fee modulo 2^64 (see C55, C57). Texts of errors are not modelled."
 ],
 "C97": [
  "proved",
  "C97_hash_cost: bound and completeness of the log of hashed strings; C97_queries: the same as a statement about the uninstrumented program."
 ],
 "C98": [
  "partial",
  "False of the code for peer address headers and blocks. Proved: independence of every outcome from the old contents for all types whose custom decoders ignore the receiver (C98_fresh_partial), that 29 wire types are such types (C98_wire_fresh_partial), the exact effect of the old contents for peer address headers and blocks (C98_header_exact, C98_block_exact), and that it is always visible (violated theorems)."
 ],
 "C99": [
  "proved",
  "C99_zero_bytes and C99_decodes_to_zero for all types; C99_custom_zero and C99_wire_zero for the package's types."
 ],
 "C100": [
  "partial",
  "False of the code; exactly when is C100_violated_iff (for amd64 C100_amd64_violated_iff). Proved for all schedules: every returned byte is right or zero (C100_bytes_partial), all results are right once the cache is filled (C100_initialised_partial), a call without interference is right and refines the sequential model (C100_sequential, C100_refines)."
 ],
 "C101": [
  "proved",
  "C101_condition_matters shows that the condition on slice elements is needed for the bound in the bytes read."
 ],
 "C102": [
  "partial",
  "Proved for every store whose GetNode returns the very pointer that was put (C102_any_pointer_store_partial), shown for MemStore and for overlays over any such store. Violated for stores that copy, as a store on disk does: C102_copying_violated shows that every further entry whose key begins with the same hex digit as the first one leaves the root hash at the one of the first entry, because invalidatePath changes nodes without putting them back; by C102_copying_wrong_hash that is the wrong hash unless two hashed strings collide."
 ],
 "C103": [
  "partial",
  "Entries: proved for every point of interruption (C103_interrupted_partial; C103_trace_faithful shows that the recorded states are those of PutEntry). The hash does not recover: C103_retry_violated shows that for every tree and every change of an entry there is a point at which an interruption leaves the new entry in place with the old hash, and that repeating the call any number of times reports no change and leaves the hash wrong, since updateEntry stops when the stored leaf has the value already. C103_delete_violated: after an interrupted deletion of the only entry under its first hex digit, PutEntry of any other key that begins with this digit panics."
 ],
 "C104": [
  "proved",
  ""
 ],
 "C105": [
  "partial",
  "Violated by the code for the object shared by all addresses without an entry (C105_shared_violated, for every history, balance and transfer); proved for all other objects (C105_own_objects_partial)."
 ],
 "C106": [
  "proved",
  "One writer. Sequential consistency of memory is assumed: the read of a node sees what has been written before (the store's lock gives this order in Go)."
 ],
 "C107": [
  "partial",
  "Violated by the code in every tree and for every such put (C107_hash_violated). Between the calls of PutEntry Hash is right (C04)."
 ],
 "C108": [
  "proved",
  ""
 ],
 "C109": [
  "proved",
  ""
 ],
 "C110": [
  "proved",
  ""
 ],
 "C111": [
  "proved",
  "Layouts for all accepted message kinds as iff; the sent bytes; the type ids (the documented id of HeaderMessage is violated, see C44)."
 ],
 "C112": [
  "proved",
  "The answer of the toml decoder is a parameter."
 ],
 "C113": [
  "proved",
  "Trees are distinct; goroutines sharing one Accounts value are C106, C107. Objects shared by all ledgers are C105."
 ],
 "C114": [
  "proved",
  ""
 ],
 "C115": [
  "partial",
  "violated by the code: sign ignored and exponent overflow; the exact range is proved"
 ],
 "C116": [
  "partial",
  "violated by the code: stale address, mismatched pair, short slices; exact behaviour proved"
 ],
 "C117": [
  "partial",
  "violated by the code: a vesting transaction over more than 2^63 splits amd64 and arm64 nodes; proved for values up to 2^63 and for contracts in range"
 ],
 "C118": [
  "partial",
  "Atomicity is false of the code: C118_twice_violated shows, for every plain transfer, that dying after the first write and pushing again debits the sender twice. Proved of every crash point: intact tree and frame (C118_intact_partial), step structure (C118_points_partial), no money appears (C118_no_money_partial, under the no-overflow hypotheses of C55)."
 ],
 "C119": [
  "proved",
  ""
 ],
 "C120": [
  "proved",
  "The decoder is modelled again over a heap of byte arrays in which slices are references and pop copies nothing; it is proved to refine the model without memory, to only add arrays, and to return references to distinct new arrays. Only byte slices are references (and net.IP): arrays lie in the value, strings are copied by the language."
 ],
 "C121": [
  "proved",
  ""
 ],
 "C122": [
  "proved",
  "Generalises C66 to all blocks. C122_order_matters shows that the condition is needed."
 ],
 "C123": [
  "proved",
  "For Blake2b-256 as defined in Blake/Spec.lean (RFC 7693); what the toml decoder makes of the toml files stays a parameter. The kernel evaluates the 2500 block hashes of the main tree."
 ],
 "C124": [
  "partial",
  "Violated (C124_violated). Proved: Push without nil is the Push of the other properties; a nil transaction is never accepted; the exact state left behind (that of a crash after as many writes as there are transactions before it), which is a reachable one; only senders before the nil are touched; the exact amount of money lost."
 ],
 "C125": [
  "partial",
  "Violated for unknown types (C125_violated). Proved: GetAccount answers exactly for entries that are empty or an account's encoding and panics on all others; what PutAccount of any implementation does; the state hash is still the Merkle root; Push on involved readable entries behaves as on an ordinary ledger and leaves foreign entries byte for byte; a block involving an unreadable entry is never accepted."
 ],
 "C126": [
  "proved",
  "wire/nibbles.go is modelled statement by statement (buffers assigned at an index, panics outside of the range) and proved equal to the model of tree/nibbles."
 ],
 "C127": [
  "partial",
  "Values and the independent parts are proved for all transactions and writes; C127_shared_violated says exactly what a write to each shared part does, C127_signed_again_violated that signing again changes the proof of the extended form."
 ],
 "C128": [
  "partial",
  "Single-account linearizability is proved for every block and every moment; that all accounts together show all coins is false of the code (C128_sum_violated)."
 ],
 "C129": [
  "partial",
  "Flush: proved. Giving up: reads proved unchanged; Hash and later puts are violated, with the exact hash proved in all cases."
 ],
 "C130": [
  "proved",
  ""
 ],
 "C131": [
  "proved",
  "Counted are the distinct strings the result depends on (C97 has a log of the actual calls for one PutEntry)."
 ],
 "C132": [
  "partial",
  "Violated by the code; exact characterisation proved (C132_exact), persistence (C132_stays), absence when every creation carries money (C132_none_partial), violation from every reachable state (C132_violated)."
 ],
 "C133": [
  "partial",
  "Violated by the code (C133_seize_violated: two transactions, from every reachable state, for every victim and amount); C133_kept_partial proves the rest."
 ],
 "C134": [
  "partial",
  "The code violates it: C134_lost_update_violated gives, for every tree and every two keys whose common first hex digit no entry has, a schedule after which both entries read back but the hash is that of the mapping without the second, and putting the second again any number of times reports no change and repairs nothing; C134_not_serial: neither serial order can give that hash unless H has a collision. C134_serial_partial: the schedules in which the second call runs before the first has begun to update are equivalent to the serial order, on every reachable tree. Only schedules in which the whole second call runs between two store calls of the first are modelled."
 ],
 "C135": [
  "partial",
  "Proved for transfers from basic accounts (C135_transfers_partial), and in general up to a panic (C135_same_or_panic_partial). The code violates the rest: C135_contracts_violated, whenever the library's transactions would be accepted, a foreign one that spends from a contract or creates one makes Push panic, since the contracts assert the dynamic type *ExtendedTx."
 ],
 "C136": [
  "partial",
  "The code violates it: the type has the beneficiary only, 20 bytes, while the accepted layouts have 24, 36 or 44 (C136_accepted_data), so every push of a block with such a creation fails in every reachable state (C136_refused_violated). What holds is that the type itself marshals to the 20 bytes of the address and is read back (C136_bytes_partial)."
 ],
 "C137": [
  "partial",
  "Exact: Hash panics iff something hashed as a nibble is 16 or more (C137_panics_iff), PutChild iff the suffix does not begin with a nibble (C137_put_child); leaves are hashed from the same bytes iff digits followed by value agree (C137_leaves), branches iff path and list of children agree (C137_branches; suffixes below 256, paths of any length although their length is truncated), a leaf and a branch never (C137_kinds). Violated: the border between path and value of a leaf is not hashed (C137_leaf_violated) and neither is the slot of a child (C137_slot_violated), for every hash function. Nodes as the tree builds them are determined by their hash (C137_binding_partial), and the model of the tree hashes its nodes in this way (C137_tree)."
 ],
 "C138": [
  "partial",
  "Proved: decoded values have the bytes that were read (C138_decoded, any declarations), trees are encoded as specified and decoded back (C138_round_trip), Unmarshal returns with linear depth if the declarations can be ranked (C138_returns), no panic for exported fields and plain byte arrays (C138_no_panic). Violated: types whose values contain one another without an optional pointer or slice in between are never decoded (C138_infinite_violated), with the pointer first Unmarshal never returns on any input (C138_overflow_violated), arrays of declared byte types and unexported numbers are encoded but panic when decoded (C138_own_bytes_violated, C138_unexported_violated), Marshal of a list returns iff the list has an end (C138_cyclic_violated). On types without names and methods this model is the same function as that of the other properties (C138_same_decoder, C138_same_encoder, C138_same_values). Marshal returns on every finite value, of any type (C138_marshal_returns), and panics on none if the tags can be parsed (C138_marshal_no_panic). Encodings are unique, prefix-free and readable from a stream, input that is cut off is rejected (C138_deterministic, C138_unique, C138_stream, C138_truncated)."
 ],
 "C139": [
  "proved",
  "C139_last_entries is about every state; C139_order, C139_superseded and C139_padding are the readable consequences. That blocks can be padded with superseded entries quoting anything is a malleability of the code, stated as it is."
 ],
 "C140": [
  "partial",
  "Violated by the code, even if every tree operation were atomic: C140_double_spend_violated gives, for every account that can pay for either of two blocks but not for both, a schedule in which both are accepted, both recipients and miners are paid and the sender pays once; C140_stale says what happens in general to the first payment. What holds is proved: every call returns (C140_returns), the tree stays well-formed (C140_intact), and blocks that have no account in common behave as if alone, in any schedule, with the accounts and tree hash of any serial order (C140_disjoint_partial, C140_serial_partial)."
 ],
 "C141": [
  "partial",
  "Violated by the code. C141_panics_violated: an entry put on one overlay makes the first put of another key beginning with the same four bits on a second overlay panic; C141_push_panics_violated: the same with two blocks without transactions on new accounts. C141_hash_violated and C141_push_hash_violated: the tree on an untouched overlay hashes as if the other candidate's puts had been made on it. What holds is proved: as long as no call panics, every answer (C141_reads_partial) and every outcome and account (C141_push_partial) is that of the candidate being alone."
 ],
 "C142": [
  "partial",
  "Violated by the code in the kind of error only. C142_error_violated: a uint32 length of 2^31 with nothing behind it is io.ErrUnexpectedEOF on 64-bit platforms and an invalid length on 32-bit ones. Everything else is proved: for every type and input of at most 2^31-1 bytes the same value, the same bytes read, and an error or a panic on both or on neither (C142_same_outcome); for all types whose lengths have at most two bytes also the same error, for any input (C142_short_same), which includes all types of package wire and package genesis and every message (C142_protocol)."
 ],
 "C143": [
  "partial",
  "Violated by the code. C143_any_subset_violated, C143_any_accounts_violated: for every set of keys or addresses there are an order and a moment in which exactly these are new. C143_money_violated: a payment of everything an account has is seen with the money in both accounts, and also in neither; a crash at that moment makes it permanent. C143_paid_twice_violated: the block is pushed again after the interruption, and the payee is paid twice. C143_panics_violated: puts on the lower store can panic. The rest is proved with the exact entries for every moment: C143_reads_partial, C143_push_partial; and what later puts and blocks build on it, as long as they do not panic: C143_puts_partial, C143_push_again_partial. What Hash says of such a store is not covered."
 ],
 "C144": [
  "partial",
  "Violated by values that do not fit: C144_any_value_violated (a slice of 65536 structs that share 65532 bytes has size 4 on a 32-bit platform, 32768 that share 64 KiB have a negative size, both without an error). Proved: the number is right up to a multiple of 2^w, lies in the range of int, and is right exactly if the encoding has fewer than 2^(w-1) bytes; errors and panics are the same on all platforms (C144_wraps). So whenever Marshal's result is one that a Go slice can hold, Size is exact or an error (C144_exact_partial). MarshalMessage is not affected: no message that it accepts shares memory, and its buffer has exactly the length of its result (C144_messages)."
 ],
 "C145": [
  "partial",
  "Violated by UnknownMessageError, which is an int64: for every type from 2^63 on, a number taken from the network, the text has a minus sign and another number (C145_unknown_violated); below it is right (C145_unknown_partial), and the texts of different types are different in any case (C145_unknown_determines). The texts of Push's errors determine the errors (C145_text_determines, C145_errors); C145_overspend, C145_mismatch, C145_hex_address and C145_prune_address say what can be read in them."
 ],
 "C146": [
  "partial",
  "Proved: for every declaration and every value that is a tree and has an encoding, Size is the length of the encoding, or an error iff there is a bool in the value (C146_exact_partial); it is what Marshal appends (C146_marshal) and what Unmarshal read (C146_decoded); without names and methods it is the Size of the other properties (C146_same_size). Violated: values with bools (Marshal encodes them), and cyclic lists: Size returns iff the list has an end, then two bytes per node (C146_cyclic_violated). Size returns on every finite value, of any type (C146_returns), and panics on none if the tags can be parsed (C146_no_panic). If Size returns n, Marshal appends n bytes, also for values without a specified encoding (C146_sound)."
 ]
}