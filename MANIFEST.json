{
 "claims": [
  {
   "property": "C01",
   "status": "proved",
   "theorems": [
    "Nimiq.Tree.C01_last_write_wins",
    "Nimiq.Tree.C01_final_last",
    "Nimiq.Tree.C01_final_never"
   ],
   "note": "Heap model with node pointers mutated in place; C01_final_last and C01_final_never spell out the specification function."
  },
  {
   "property": "C02",
   "status": "proved",
   "theorems": [
    "Nimiq.Tree.C02_reports_change"
   ],
   "note": ""
  },
  {
   "property": "C03",
   "status": "proved",
   "theorems": [
    "Nimiq.Tree.C03_history_independent"
   ],
   "note": ""
  },
  {
   "property": "C04",
   "status": "proved",
   "theorems": [
    "Nimiq.Tree.C04_root_hash",
    "Nimiq.Tree.C04_no_stale_hash"
   ],
   "note": "For every hash function, including ones that return the zero hash the code uses as its 'dirty' mark."
  },
  {
   "property": "C05",
   "status": "proved",
   "theorems": [
    "Nimiq.Tree.C05_binding",
    "Nimiq.Tree.C05_binding_no_collision"
   ],
   "note": "Explicit collision between listed byte strings; C05_binding_no_collision when no two strings of the two trees collide."
  },
  {
   "property": "C06",
   "status": "proved",
   "theorems": [
    "Nimiq.Tree.C06_canonical_nodes"
   ],
   "note": "Exact set of stored nodes, exact child slots, and the 2n+1 bound."
  },
  {
   "property": "C07",
   "status": "proved",
   "theorems": [
    "Nimiq.Tree.C07_no_panic"
   ],
   "note": "Also excludes non-termination: running out of fuel counts as a panic in the model."
  },
  {
   "property": "C08",
   "status": "proved",
   "theorems": [
    "Nimiq.Tree.C08_toKey_keyToNibbles",
    "Nimiq.Tree.C08_nibbles",
    "Nimiq.Tree.C08_bijection",
    "Nimiq.Tree.C08_toKey_panics_iff",
    "Nimiq.Tree.C08_hexBytes"
   ],
   "note": ""
  },
  {
   "property": "C09",
   "status": "proved",
   "theorems": [
    "Nimiq.Tree.C09_prefixOf_iff",
    "Nimiq.Tree.C09_commonPrefix"
   ],
   "note": ""
  },
  {
   "property": "C10",
   "status": "partial",
   "theorems": [
    "Nimiq.Tree.C10_compress_violated",
    "Nimiq.Tree.C10_compress_repaired_partial"
   ],
   "note": "Violated: Compress panics on every non-empty list (C10_compress_violated); C10 partial covers the empty list."
  },
  {
   "property": "C11",
   "status": "proved",
   "theorems": [
    "Nimiq.Tree.C11_progress",
    "Nimiq.Tree.C11_overlay"
   ],
   "note": "All operation sequences and all map iteration orders."
  },
  {
   "property": "C12",
   "status": "partial",
   "theorems": [
    "Nimiq.Tree.C12_violated",
    "Nimiq.Tree.C12_partial"
   ],
   "note": "Violated: C12_violated shows the lower store's root node changing before any Flush, for every key and value; C12_partial: the lower path-to-pointer map does stay the same."
  },
  {
   "property": "C13",
   "status": "proved",
   "theorems": [
    "Nimiq.Tree.C13_overlay_tree"
   ],
   "note": "Any nesting of overlays, pushes and flushes interleaved with puts."
  },
  {
   "property": "C14",
   "status": "partial",
   "theorems": [
    "Nimiq.Tree.C14_violated",
    "Nimiq.Tree.C14_putEntry_panics"
   ],
   "note": "Violated: C14_violated (every write panics), C14_putEntry_panics."
  },
  {
   "property": "C15",
   "status": "proved",
   "theorems": [
    "Nimiq.Address.C15_decode_encode"
   ],
   "note": ""
  },
  {
   "property": "C16",
   "status": "proved",
   "theorems": [
    "Nimiq.Address.C16_format",
    "Nimiq.Address.C16_injective"
   ],
   "note": ""
  },
  {
   "property": "C17",
   "status": "proved",
   "theorems": [
    "Nimiq.Address.C17_accepts_iff",
    "Nimiq.Address.C17_never_panics",
    "Nimiq.Address.C17_header_alnum"
   ],
   "note": "encoding/base32 is modelled by its contract on whole groups (Model.lean)."
  },
  {
   "property": "C18",
   "status": "partial",
   "theorems": [
    "Nimiq.Address.C18_trailing_space_violated",
    "Nimiq.Address.C18_spaces_partial"
   ],
   "note": "Violated by the code for strings ending in a space (C18_trailing_space_violated); holds otherwise (C18_spaces_partial)."
  },
  {
   "property": "C19",
   "status": "partial",
   "theorems": [
    "Nimiq.Address.C19_country_code_violated",
    "Nimiq.Address.C19_country_code_partial"
   ],
   "note": "Violated: && for || accepts any header with one of the two letters (C19_country_code_violated); the weaker rejection is C19_country_code_partial."
  },
  {
   "property": "C20",
   "status": "proved",
   "theorems": [
    "Nimiq.Address.C20_check_is_mod97"
   ],
   "note": ""
  },
  {
   "property": "C21",
   "status": "proved",
   "theorems": [
    "Nimiq.Address.C21_single_typo"
   ],
   "note": ""
  },
  {
   "property": "C22",
   "status": "proved",
   "theorems": [
    "Nimiq.Address.C22_transposition"
   ],
   "note": "Characterises exactly which adjacent transpositions in the data part are undetected."
  },
  {
   "property": "C23",
   "status": "proved",
   "theorems": [
    "Nimiq.Policy.C23_supply_bounds",
    "Nimiq.Policy.C23_no_wrap",
    "Nimiq.Policy.C23_wraps_above_cap"
   ],
   "note": "uint64 emission formula equals the Nat specification, bounded by the cap, monotone."
  },
  {
   "property": "C24",
   "status": "proved",
   "theorems": [
    "Nimiq.Policy.C24_cache_invisible",
    "Nimiq.Policy.C24_history_independent",
    "Nimiq.Policy.C24_supplyBetween_split"
   ],
   "note": "For every reachable cache state and every uint32 height, including 2^32-1 (where height+1 wraps; correct only because emission has ended)."
  },
  {
   "property": "C25",
   "status": "proved",
   "theorems": [
    "Nimiq.Policy.C25_results",
    "Nimiq.Policy.C25_lock_discipline",
    "Nimiq.Policy.C25_no_deadlock",
    "Nimiq.Policy.C25_bounded_steps"
   ],
   "note": "Interleaving model of the mutex protocol: results, lock discipline, deadlock freedom, bounded steps. The Go memory model is represented by sequentially consistent steps between lock operations."
  },
  {
   "property": "C26",
   "status": "proved",
   "theorems": [
    "Nimiq.Policy.C26_reward_is_increment"
   ],
   "note": ""
  },
  {
   "property": "C27",
   "status": "proved",
   "theorems": [
    "Nimiq.Policy.C27_reward_antitone"
   ],
   "note": "Uses certified fixed-point bounds on the remaining supply at the emission tail switch."
  },
  {
   "property": "C28",
   "status": "proved",
   "theorems": [
    "Nimiq.Policy.C28_emission_ends"
   ],
   "note": "Explicit end height 52,890,010."
  },
  {
   "property": "C29",
   "status": "proved",
   "theorems": [
    "Nimiq.Beserial.C29_round_trip",
    "Nimiq.Beserial.C29_encodable_values"
   ],
   "note": "For every type of the universe (numbers, bool, string, arrays, slices, pointers, structs with tags, lawful custom types); slice elements must take at least one byte, because the decoder compares the length with the remaining bytes (see C31_zero_size_elements_exception)."
  },
  {
   "property": "C30",
   "status": "proved",
   "theorems": [
    "Nimiq.Beserial.C30_canonical",
    "Nimiq.Beserial.C30_no_two_encodings"
   ],
   "note": "Same universe as C29."
  },
  {
   "property": "C31",
   "status": "proved",
   "theorems": [
    "Nimiq.Beserial.C31_byte_count",
    "Nimiq.Beserial.C31_depends_on_prefix",
    "Nimiq.Beserial.C31_zero_size_elements_exception"
   ],
   "note": "The count holds for all types including unlawful custom decoders; prefix dependence under C29's condition on slice elements, with the exception exhibited."
  },
  {
   "property": "C32",
   "status": "partial",
   "theorems": [
    "Nimiq.Beserial.C32_size_sound",
    "Nimiq.Beserial.C32_size_complete_partial",
    "Nimiq.Beserial.C32_size_complete_violated",
    "Nimiq.Wire.C32_size_sound_violated"
   ],
   "note": "Soundness proved (custom types must have an exact generic size; see C32_size_sound_violated for EmptyMessage); completeness is false for bools and custom types, proved for the rest."
  },
  {
   "property": "C33",
   "status": "partial",
   "theorems": [
    "Nimiq.Beserial.C33_append_partial",
    "Nimiq.Beserial.C33_append_pointer_free",
    "Nimiq.Beserial.C33_append_violated"
   ],
   "note": "False below failing pointers (witness for every prefix and value); proved for values whose pointer targets are encodable, hence for all pointer-free types."
  },
  {
   "property": "C34",
   "status": "partial",
   "theorems": [
    "Nimiq.Beserial.C34_reports_partial",
    "Nimiq.Beserial.C34_reports_pointer_free",
    "Nimiq.Beserial.C34_reports_violated"
   ],
   "note": "False below pointers (witness); exact characterisation of success and error otherwise."
  },
  {
   "property": "C35",
   "status": "proved",
   "theorems": [
    "Nimiq.Beserial.C35_no_panic",
    "Nimiq.Beserial.C35_limit_matters"
   ],
   "note": "Allocation limit is a parameter of the decoder: no panic even if nothing longer than the input can be allocated."
  },
  {
   "property": "C36",
   "status": "partial",
   "theorems": [
    "Nimiq.Beserial.C36_overlong_violated",
    "Nimiq.Beserial.C36_fitting_partial"
   ],
   "note": "False for every over-long byte slice with an 8, 16 or 32 bit tag; the fitting case is proved."
  },
  {
   "property": "C37",
   "status": "proved",
   "theorems": [
    "Nimiq.Beserial.C37_full_iff",
    "Nimiq.Beserial.C37_full_canonical"
   ],
   "note": ""
  },
  {
   "property": "C38",
   "status": "proved",
   "theorems": [
    "Nimiq.Beserial.C38_tags",
    "Nimiq.Beserial.C38_no_combination"
   ],
   "note": ""
  },
  {
   "property": "C39",
   "status": "proved",
   "theorems": [
    "Nimiq.Wire.C39_round_trip",
    "Nimiq.Wire.C39_canonical",
    "Nimiq.Wire.C39_unknown_type",
    "Nimiq.Wire.C39_no_panic"
   ],
   "note": "round trip, canonicity, unknown types, no panic"
  },
  {
   "property": "C40",
   "status": "proved",
   "theorems": [
    "Nimiq.Wire.C40_round_trip",
    "Nimiq.Wire.C40_canonical",
    "Nimiq.Wire.C40_unknown_type",
    "Nimiq.Wire.C40_length"
   ],
   "note": "round trip, canonicity, unknown types, fixed lengths"
  },
  {
   "property": "C41",
   "status": "partial",
   "theorems": [
    "Nimiq.Wire.C41_round_trip_partial",
    "Nimiq.Wire.C41_header_violated",
    "Nimiq.Wire.C41_receipts_violated"
   ],
   "note": "True for every sendable message except HeaderMessage and GetTxReceipts (violated, proved). GetTxProof with addresses cannot be sent (C42)."
  },
  {
   "property": "C42",
   "status": "partial",
   "theorems": [
    "Nimiq.Wire.C42_sendable_partial",
    "Nimiq.Wire.C42_violated",
    "Nimiq.Wire.C42_receivable",
    "Nimiq.Wire.C42_receivable_each"
   ],
   "note": "Violated; exact set of sendable messages and of receivable types proved"
  },
  {
   "property": "C43",
   "status": "partial",
   "theorems": [
    "Nimiq.Wire.C43_panics_iff_violated",
    "Nimiq.Wire.C43_no_panic_partial"
   ],
   "note": "Violated; exact set of panicking inputs proved"
  },
  {
   "property": "C44",
   "status": "partial",
   "theorems": [
    "Nimiq.Wire.C44_type_partial",
    "Nimiq.Wire.C44_violated"
   ],
   "note": "Violated exactly for type 7"
  },
  {
   "property": "C45",
   "status": "partial",
   "theorems": [
    "Nimiq.Wire.C45_interlink_partial",
    "Nimiq.Wire.C45_violated",
    "Nimiq.Wire.C45_reencode_violated",
    "Nimiq.Wire.C45_block_partial"
   ],
   "note": "Violated; exact result of decoding an interlink proved, blocks without interlink hashes round-trip"
  },
  {
   "property": "C46",
   "status": "partial",
   "theorems": [
    "Nimiq.Wire.C46_bits_partial",
    "Nimiq.Wire.C46_round_trip",
    "Nimiq.Wire.C46_violated"
   ],
   "note": "Violated for 249..255 declared bits; holds for 0..248"
  },
  {
   "property": "C47",
   "status": "partial",
   "theorems": [
    "Nimiq.Wire.C47_ipv4_partial",
    "Nimiq.Wire.C47_ipv6_violated",
    "Nimiq.Wire.C47_other_types"
   ],
   "note": "Violated for every IPv6 address; holds for IPv4"
  },
  {
   "property": "C48",
   "status": "partial",
   "theorems": [
    "Nimiq.Wire.C48_violated",
    "Nimiq.Wire.C48_header_partial",
    "Nimiq.Wire.C48_error"
   ],
   "note": "Violated for every peer address and every input; header alone round-trips for IPv4"
  },
  {
   "property": "C49",
   "status": "proved",
   "theorems": [
    "Nimiq.Wire.C49_layout",
    "Nimiq.Wire.C49_injective",
    "Nimiq.Wire.C49_key",
    "Nimiq.Wire.C49_proof_independent"
   ],
   "note": "injective for every length of data, including lengths over 65535 where the length prefix wraps"
  },
  {
   "property": "C50",
   "status": "proved",
   "theorems": [
    "Nimiq.Wire.C50_address",
    "Nimiq.Wire.C50_extended",
    "Nimiq.Wire.C50_basic"
   ],
   "note": ""
  },
  {
   "property": "C51",
   "status": "proved",
   "theorems": [
    "Nimiq.Wire.C51_verify",
    "Nimiq.Wire.C51_signed_bytes",
    "Nimiq.Wire.C51_verify_iff"
   ],
   "note": "for any signature scheme whose own signatures verify"
  },
  {
   "property": "C52",
   "status": "proved",
   "theorems": [
    "Nimiq.Wire.C52_root",
    "Nimiq.Wire.C52_empty",
    "Nimiq.Wire.C52_binding",
    "Nimiq.Wire.C52_decoded",
    "Nimiq.Wire.C52_decoded_violated"
   ],
   "note": "collision alternative explicit; paths with 249..255 branches crash (C52_decoded_violated)"
  },
  {
   "property": "C53",
   "status": "proved",
   "theorems": [
    "Nimiq.Wire.C53_panics_iff",
    "Nimiq.Wire.C53_value",
    "Nimiq.Wire.C53_monotone",
    "Nimiq.Wire.C53_exact",
    "Nimiq.Wire.C53_difficulty_panics_iff",
    "Nimiq.Wire.C53_difficulty_antitone"
   ],
   "note": "panic set, value, monotonicity, exact values; also DifficultyToCompact"
  },
  {
   "property": "C54",
   "status": "proved",
   "theorems": [
    "Nimiq.Accounts.C54_read_your_writes",
    "Nimiq.Accounts.C54_fresh",
    "Nimiq.Accounts.C54_history"
   ],
   "note": ""
  },
  {
   "property": "C55",
   "status": "partial",
   "theorems": [
    "Nimiq.Accounts.C55_conservation_partial",
    "Nimiq.Accounts.C55_contract_fees_partial",
    "Nimiq.Accounts.C55_modulo_partial",
    "Nimiq.Accounts.C55_wrap_violated"
   ],
   "note": "Violated in general (C55_wrap_violated: from every state; also C57_vesting_violated); proved without overflow and with basic senders; exact result modulo 2^64 for every block"
  },
  {
   "property": "C56",
   "status": "partial",
   "theorems": [
    "Nimiq.Accounts.C56_first_tx_partial",
    "Nimiq.Accounts.C56_no_txs_partial",
    "Nimiq.Accounts.C56_violated"
   ],
   "note": "Violated (C56_violated); holds for blocks without transactions and when the first debit fails"
  },
  {
   "property": "C57",
   "status": "partial",
   "theorems": [
    "Nimiq.Accounts.C57_basic_partial",
    "Nimiq.Accounts.C57_htlc",
    "Nimiq.Accounts.C57_vesting_violated"
   ],
   "note": "Violated for basic accounts when value+fee wraps (C55_wrap_violated) and for vesting accounts (C57_vesting_violated); proved for HTLCs and for basic accounts without wrapping"
  },
  {
   "property": "C58",
   "status": "proved",
   "theorems": [
    "Nimiq.Accounts.C58_frame"
   ],
   "note": ""
  },
  {
   "property": "C59",
   "status": "proved",
   "theorems": [
    "Nimiq.Accounts.C59_listed",
    "Nimiq.Accounts.C59_contract",
    "Nimiq.Accounts.C59_list_unique",
    "Nimiq.Accounts.C59_map_order"
   ],
   "note": "also: the accepted prune list is unique, map iteration order is invisible but for the address named in an error"
  },
  {
   "property": "C60",
   "status": "proved",
   "theorems": [
    "Nimiq.Accounts.C60_debit_iff",
    "Nimiq.Accounts.C60_locked_before_start",
    "Nimiq.Accounts.C60_block",
    "Nimiq.Accounts.C60_monotone",
    "Nimiq.Accounts.C60_whole_steps",
    "Nimiq.Accounts.C60_amount"
   ],
   "note": "exact debit rule; block version; monotone below 2^63 (beyond, Go leaves the conversion open); exact at whole steps; error bound elsewhere"
  },
  {
   "property": "C61",
   "status": "partial",
   "theorems": [
    "Nimiq.Accounts.C61_debit_iff",
    "Nimiq.Accounts.C61_block",
    "Nimiq.Accounts.C61_preimage_violated"
   ],
   "note": "Debit rules proved as an equivalence; pre-image clause violated for every contract (C61_preimage_violated)"
  },
  {
   "property": "C62",
   "status": "partial",
   "theorems": [
    "Nimiq.Accounts.C62_theft_violated",
    "Nimiq.Accounts.C62_signatures_ignored_violated"
   ],
   "note": "Violated: C62_signatures_ignored_violated (no signature matters for any block) and C62_theft_violated (no proof needed at all for basic accounts)"
  },
  {
   "property": "C63",
   "status": "proved",
   "theorems": [
    "Nimiq.Accounts.C63_accepted",
    "Nimiq.Accounts.C63_data_iff",
    "Nimiq.Accounts.C63_lengths",
    "Nimiq.Accounts.C63_created"
   ],
   "note": ""
  },
  {
   "property": "C64",
   "status": "partial",
   "theorems": [
    "Nimiq.Accounts.C64_no_panic_partial",
    "Nimiq.Accounts.C64_nil_body_violated",
    "Nimiq.Accounts.C64_height_violated",
    "Nimiq.Accounts.C64_incoming_violated",
    "Nimiq.Accounts.C64_long_path_violated"
   ],
   "note": "Violated (four kinds of witnesses); proved when these are excluded, with the sharp bound of 8065 proof bytes"
  },
  {
   "property": "C65",
   "status": "partial",
   "theorems": [
    "Nimiq.Accounts.C65_declared_type_partial",
    "Nimiq.Accounts.C65_recipient_type_partial",
    "Nimiq.Accounts.C65_bypass_violated"
   ],
   "note": "Violated for 0xFF (C65_bypass_violated); holds for every other declared type"
  },
  {
   "property": "C66",
   "status": "proved",
   "theorems": [
    "Nimiq.Accounts.C66_order_irrelevant"
   ],
   "note": ""
  },
  {
   "property": "C67",
   "status": "proved",
   "theorems": [
    "Nimiq.Accounts.C67_deterministic",
    "Nimiq.Accounts.C67_hash"
   ],
   "note": ""
  },
  {
   "property": "C68",
   "status": "proved",
   "theorems": [
    "Nimiq.Genesis.C68_iff",
    "Nimiq.Genesis.C68_panic",
    "Nimiq.Genesis.C68_plain"
   ],
   "note": "InitAccounts succeeds iff push and root hash agree; exact result for blocks without transactions"
  },
  {
   "property": "C69",
   "status": "proved",
   "theorems": [
    "Nimiq.Genesis.C69_iff",
    "Nimiq.Genesis.C69_ends"
   ],
   "note": "iff; the program otherwise panics; complete_run is a run replaying two blocks"
  },
  {
   "property": "C70",
   "status": "partial",
   "theorems": [
    "Nimiq.Genesis.C70_export_ordered",
    "Nimiq.Genesis.C70_export_complete",
    "Nimiq.Genesis.C70_last_violated",
    "Nimiq.Genesis.C70_order_violated",
    "Nimiq.Genesis.C70_replay_partial",
    "Nimiq.Genesis.C70_ends_ignored_violated"
   ],
   "note": "violated at both ends of the range and in the order of out-of-order batches (C70_last_violated, C70_order_violated, C70_ends_ignored_violated); the export's content and the replay of in-order exports are proved exactly"
  },
  {
   "property": "C71",
   "status": "proved",
   "theorems": [
    "Nimiq.Beserial.C71_arguments"
   ],
   "note": ""
  },
  {
   "property": "C72",
   "status": "partial",
   "theorems": [
    "Nimiq.Wire.C72_same_content",
    "Nimiq.Wire.C72_proof_violated"
   ],
   "note": "First half proved; second half violated"
  },
  {
   "property": "C73",
   "status": "partial",
   "theorems": [
    "Nimiq.Wire.C73_violated",
    "Nimiq.Wire.C73_empty_partial"
   ],
   "note": "Violated; only the empty chunk works"
  },
  {
   "property": "C74",
   "status": "proved",
   "theorems": [
    "Nimiq.Wire.C74_round_trip",
    "Nimiq.Wire.C74_canonical"
   ],
   "note": ""
  },
  {
   "property": "C75",
   "status": "proved",
   "theorems": [
    "Nimiq.Wire.C75_canonical",
    "Nimiq.Wire.C75_no_junk"
   ],
   "note": ""
  },
  {
   "property": "C76",
   "status": "proved",
   "theorems": [
    "Nimiq.Accounts.C76_accepted_iff",
    "Nimiq.Accounts.C76_balances"
   ],
   "note": ""
  },
  {
   "property": "C77",
   "status": "partial",
   "theorems": [
    "Nimiq.Accounts.C77_modulo_partial",
    "Nimiq.Accounts.C77_with_htlc_partial",
    "Nimiq.Accounts.C77_cap_partial",
    "Nimiq.Accounts.C77_supply_follows_schedule_partial",
    "Nimiq.Genesis.C77_builtin_partial"
   ],
   "note": "exactly for chains whose senders are basic accounts or HTLCs and whose value+fee does not wrap; modulo 2^64 for all chains without the sender type 0xFF; past block 52,888,984 the total is the cap"
  },
  {
   "property": "C78",
   "status": "proved",
   "theorems": [
    "Nimiq.Genesis.C78_open_iff",
    "Nimiq.Genesis.C78_no_nil"
   ],
   "note": "files are parameters; toml decoding is not modelled"
  },
  {
   "property": "C79",
   "status": "partial",
   "theorems": [
    "Nimiq.Genesis.C79_violated"
   ],
   "note": "violated: C79_violated shows that a wrong configured hash is accepted, for every notion of block hash"
  },
  {
   "property": "C80",
   "status": "proved",
   "theorems": [
    "Nimiq.Genesis.C80_state_pinned"
   ],
   "note": "the collision is among the strings hashed for the two states"
  },
  {
   "property": "C81",
   "status": "proved",
   "theorems": [
    "Nimiq.Policy.C81_cap_reached",
    "Nimiq.Policy.C81_last_reward"
   ],
   "note": "the emission curve is computed exactly by the kernel (Policy/Lanes.lean, Policy/Chunks.lean); no sampled heights"
  },
  {
   "property": "C82",
   "status": "partial",
   "theorems": [
    "Nimiq.Accounts.C82_repeated_withdrawal_violated",
    "Nimiq.Accounts.C82_stepless_partial"
   ],
   "note": "Violated (C82_repeated_withdrawal_violated: any number of repetitions, any heights); proved for contracts without steps"
  },
  {
   "property": "C83",
   "status": "partial",
   "theorems": [
    "Nimiq.Accounts.C83_replayed_violated",
    "Nimiq.Accounts.C83_validity_network_ignored_violated"
   ],
   "note": "Violated: C83_validity_network_ignored_violated (for all blocks), C83_replayed_violated (any number of repetitions). No part of the property holds."
  },
  {
   "property": "C84",
   "status": "proved",
   "theorems": [
    "Nimiq.Wire.C84_fixed_exact",
    "Nimiq.Wire.C84_wrapped_exact",
    "Nimiq.Wire.C84_nil",
    "Nimiq.Wire.C84_any",
    "Nimiq.Wire.C84_peer_address"
   ],
   "note": ""
  },
  {
   "property": "C85",
   "status": "proved",
   "theorems": [
    "Nimiq.Wire.C85_scheme",
    "Nimiq.Wire.C85_peer_id",
    "Nimiq.Wire.C85_services"
   ],
   "note": "The values of the service flags differ from those of the Nimiq protocol (Nano is 2, not 1), which is not a property of this repository alone."
  },
  {
   "property": "C86",
   "status": "partial",
   "theorems": [
    "Nimiq.Accounts.C86_undo",
    "Nimiq.Accounts.C86_push_injective",
    "Nimiq.Accounts.C86_chain_injective",
    "Nimiq.Accounts.C86_revert_violated"
   ],
   "note": "False of the code as stated: Revert panics on every call (C86_revert_violated). Proved instead: the state before is a function of the block and the state after (explicit undo), so push and chains are injective on account states."
  },
  {
   "property": "C87",
   "status": "proved",
   "theorems": [
    "Nimiq.Accounts.C87_htlc_refund",
    "Nimiq.Accounts.C87_htlc_redeem",
    "Nimiq.Accounts.C87_htlc_early",
    "Nimiq.Accounts.C87_vesting",
    "Nimiq.Accounts.C87_vesting_end"
   ],
   "note": "Signatures are not verified by the code (C50), so any 64 bytes serve as the signature; the theorems hold for all of them."
  },
  {
   "property": "C88",
   "status": "partial",
   "theorems": [
    "Nimiq.Accounts.C88_between_steps_violated",
    "Nimiq.Accounts.C88_total_ignored_violated"
   ],
   "note": "False of the code: money is released between the steps (C88_between_steps_violated) and VestingTotalAmount is never consulted (C88_total_ignored_violated). What the code does release is exactly characterised by C60."
  },
  {
   "property": "C89",
   "status": "partial",
   "theorems": [
    "Nimiq.Genesis.C89_heights_violated",
    "Nimiq.Genesis.C89_links_violated"
   ],
   "note": "False of the code: C89_links_violated (any replacement of the other header bytes leaves the replay's result and final state unchanged) and C89_heights_violated (any sequence of nonzero heights is replayed). What is checked is exactly C69."
  },
  {
   "property": "C90",
   "status": "proved",
   "theorems": [
    "Nimiq.Genesis.C90_archived",
    "Nimiq.Genesis.C90_replayed"
   ],
   "note": "The interlink's hashes are decoded shifted (C45), which a replay does not look at."
  },
  {
   "property": "C91",
   "status": "proved",
   "theorems": [
    "Nimiq.Beserial.C91_prefix_free",
    "Nimiq.Beserial.C91_truncated",
    "Nimiq.Beserial.C91_stream"
   ],
   "note": ""
  },
  {
   "property": "C92",
   "status": "partial",
   "theorems": [
    "Nimiq.Address.C92_data",
    "Nimiq.Address.C92_nq_iff",
    "Nimiq.Address.C92_aliases",
    "Nimiq.Address.C92_one_spelling_violated"
   ],
   "note": "False of the code (C92_one_spelling_violated). The aliases with two check digits are exactly C92_aliases; headers with letters in place of the check digits or with another country letter are covered by C17 and C19."
  },
  {
   "property": "C93",
   "status": "proved",
   "theorems": [
    "Nimiq.Tree.C93_slices",
    "Nimiq.Tree.C93_refines"
   ],
   "note": "Writes by callers are C94."
  },
  {
   "property": "C94",
   "status": "partial",
   "theorems": [
    "Nimiq.Tree.C94_same_slice",
    "Nimiq.Tree.C94_violated"
   ],
   "note": "False of the code: PutEntry keeps and GetEntry returns the very slice (C94_same_slice), so any write that changes a byte of it changes what GetEntry returns while Hash stays the old one (C94_violated). Callers that never write are safe: C93."
  },
  {
   "property": "C95",
   "status": "proved",
   "theorems": [
    "Nimiq.Accounts.C95_account_eq"
   ],
   "note": ""
  },
  {
   "property": "C96",
   "status": "proved",
   "theorems": [
    "Nimiq.Accounts.C96_truthful",
    "Nimiq.Accounts.C96_overspend_iff"
   ],
   "note": "The amount a basic account is asked for is value plus fee modulo 2^64 (see C55, C57). Texts of errors are not modelled."
  },
  {
   "property": "C97",
   "status": "proved",
   "theorems": [
    "Nimiq.Tree.C97_hash_cost",
    "Nimiq.Tree.C97_queries"
   ],
   "note": "C97_hash_cost: bound and completeness of the log of hashed strings; C97_queries: the same as a statement about the uninstrumented program."
  },
  {
   "property": "C98",
   "status": "partial",
   "theorems": [
    "Nimiq.Wire.C98_fresh_partial",
    "Nimiq.Wire.C98_header_exact",
    "Nimiq.Wire.C98_block_exact",
    "Nimiq.Wire.C98_wire_fresh_partial",
    "Nimiq.Wire.C98_netaddress_violated",
    "Nimiq.Wire.C98_block_violated"
   ],
   "note": "False of the code for peer address headers and blocks. Proved: independence of every outcome from the old contents for all types whose custom decoders ignore the receiver (C98_fresh_partial), that 29 wire types are such types (C98_wire_fresh_partial), the exact effect of the old contents for peer address headers and blocks (C98_header_exact, C98_block_exact), and that it is always visible (violated theorems)."
  },
  {
   "property": "C99",
   "status": "proved",
   "theorems": [
    "Nimiq.Beserial.C99_zero_bytes",
    "Nimiq.Beserial.C99_decodes_to_zero",
    "Nimiq.Wire.C99_custom_zero",
    "Nimiq.Wire.C99_wire_zero"
   ],
   "note": "C99_zero_bytes and C99_decodes_to_zero for all types; C99_custom_zero and C99_wire_zero for the package's types."
  },
  {
   "property": "C100",
   "status": "partial",
   "theorems": [
    "Nimiq.Wire.C100_bytes_partial",
    "Nimiq.Wire.C100_sequential",
    "Nimiq.Wire.C100_violated_iff",
    "Nimiq.Wire.C100_initialised_partial",
    "Nimiq.Wire.C100_amd64_violated_iff",
    "Nimiq.Wire.C100_refines"
   ],
   "note": "False of the code; exactly when is C100_violated_iff (for amd64 C100_amd64_violated_iff). Proved for all schedules: every returned byte is right or zero (C100_bytes_partial), all results are right once the cache is filled (C100_initialised_partial), a call without interference is right and refines the sequential model (C100_sequential, C100_refines)."
  },
  {
   "property": "C101",
   "status": "proved",
   "theorems": [
    "Nimiq.Beserial.C101_linear",
    "Nimiq.Beserial.C101_linear_in_read",
    "Nimiq.Beserial.C101_condition_matters",
    "Nimiq.Beserial.C101_exact",
    "Nimiq.Wire.C101_block",
    "Nimiq.Wire.C101_tx",
    "Nimiq.Wire.C101_account",
    "Nimiq.Wire.C101_message"
   ],
   "note": "C101_condition_matters shows that the condition on slice elements is needed for the bound in the bytes read."
  },
  {
   "property": "C102",
   "status": "partial",
   "theorems": [
    "Nimiq.Tree.Generic.C102_memStore",
    "Nimiq.Tree.Generic.C102_overlayStore",
    "Nimiq.Tree.Generic.C102_copying_violated",
    "Nimiq.Tree.Generic.C102_copying_wrong_hash",
    "Nimiq.Tree.Generic.C102_any_pointer_store_partial"
   ],
   "note": "Proved for every store whose GetNode returns the very pointer that was put (C102_any_pointer_store_partial), shown for MemStore and for overlays over any such store. Violated for stores that copy, as a store on disk does: C102_copying_violated shows that every further entry whose key begins with the same hex digit as the first one leaves the root hash at the one of the first entry, because invalidatePath changes nodes without putting them back; by C102_copying_wrong_hash that is the wrong hash unless two hashed strings collide."
  },
  {
   "property": "C103",
   "status": "partial",
   "theorems": [
    "Nimiq.Tree.Generic.C103_delete_violated",
    "Nimiq.Tree.Generic.C103_trace_faithful",
    "Nimiq.Tree.Generic.C103_interrupted_partial",
    "Nimiq.Tree.Generic.C103_retry_violated"
   ],
   "note": "Entries: proved for every point of interruption (C103_interrupted_partial; C103_trace_faithful shows that the recorded states are those of PutEntry). The hash does not recover: C103_retry_violated shows that for every tree and every change of an entry there is a point at which an interruption leaves the new entry in place with the old hash, and that repeating the call any number of times reports no change and leaves the hash wrong, since updateEntry stops when the stored leaf has the value already. C103_delete_violated: after an interrupted deletion of the only entry under its first hex digit, PutEntry of any other key that begins with this digit panics."
  },
  {
   "property": "C104",
   "status": "proved",
   "theorems": [
    "Nimiq.Tree.C104_flush_retry",
    "Nimiq.Tree.C104_states_end",
    "Nimiq.Tree.C104_tree"
   ],
   "note": ""
  },
  {
   "property": "C105",
   "status": "partial",
   "theorems": [
    "Nimiq.Accounts.C105_own_objects_partial",
    "Nimiq.Accounts.C105_shared_violated"
   ],
   "note": "Violated by the code for the object shared by all addresses without an entry (C105_shared_violated, for every history, balance and transfer); proved for all other objects (C105_own_objects_partial)."
  },
  {
   "property": "C106",
   "status": "proved",
   "theorems": [
    "Nimiq.Tree.Generic.C106_get_entry",
    "Nimiq.Tree.Generic.C106_linearizable"
   ],
   "note": "One writer. Sequential consistency of memory is assumed: the read of a node sees what has been written before (the store's lock gives this order in Go)."
  },
  {
   "property": "C107",
   "status": "partial",
   "theorems": [
    "Nimiq.Tree.Generic.C107_hash_violated"
   ],
   "note": "Violated by the code in every tree and for every such put (C107_hash_violated). Between the calls of PutEntry Hash is right (C04)."
  },
  {
   "property": "C108",
   "status": "proved",
   "theorems": [
    "Nimiq.Tree.Generic.C108_calls",
    "Nimiq.Tree.Generic.C108_history"
   ],
   "note": ""
  },
  {
   "property": "C109",
   "status": "proved",
   "theorems": [
    "Nimiq.Accounts.C109_any_store"
   ],
   "note": ""
  },
  {
   "property": "C110",
   "status": "proved",
   "theorems": [
    "Nimiq.Accounts.C110_push_calls"
   ],
   "note": ""
  },
  {
   "property": "C111",
   "status": "proved",
   "theorems": [
    "Nimiq.Wire.C111_receive_block",
    "Nimiq.Wire.C111_receive_getBlocks",
    "Nimiq.Wire.C111_receive_header",
    "Nimiq.Wire.C111_receive_tx",
    "Nimiq.Wire.C111_receive_addr",
    "Nimiq.Wire.C111_receive_getAddr",
    "Nimiq.Wire.C111_receive_ping",
    "Nimiq.Wire.C111_receive_verAck",
    "Nimiq.Wire.C111_type_ids",
    "Nimiq.Wire.C111_send"
   ],
   "note": "Layouts for all accepted message kinds as iff; the sent bytes; the type ids (the documented id of HeaderMessage is violated, see C44)."
  },
  {
   "property": "C112",
   "status": "proved",
   "theorems": [
    "Nimiq.Genesis.C112_opens",
    "Nimiq.Genesis.C112_supply",
    "Nimiq.Genesis.C112_init"
   ],
   "note": "The answer of the toml decoder is a parameter."
  },
  {
   "property": "C113",
   "status": "proved",
   "theorems": [
    "Nimiq.Accounts.C113_isolated",
    "Nimiq.Accounts.C113_concurrent"
   ],
   "note": "Trees are distinct; goroutines sharing one Accounts value are C106, C107. Objects shared by all ledgers are C105."
  },
  {
   "property": "C114",
   "status": "proved",
   "theorems": [
    "Nimiq.Policy.C114_faithful",
    "Nimiq.Policy.C114_one",
    "Nimiq.Policy.C114_history",
    "Nimiq.Policy.C114_memory"
   ],
   "note": ""
  },
  {
   "property": "C115",
   "status": "partial",
   "theorems": [
    "Nimiq.Wire.C115_panics_iff",
    "Nimiq.Wire.C115_range_partial",
    "Nimiq.Wire.C115_target_sign_violated",
    "Nimiq.Wire.C115_difficulty_sign_violated",
    "Nimiq.Wire.C115_overflow_violated",
    "Nimiq.Wire.C115_nonneg",
    "Nimiq.Wire.C115_range_iff_partial"
   ],
   "note": "violated by the code: sign ignored and exponent overflow; the exact range is proved"
  },
  {
   "property": "C116",
   "status": "partial",
   "theorems": [
    "Nimiq.Wire.C116_same",
    "Nimiq.Wire.C116_panics",
    "Nimiq.Wire.C116_history",
    "Nimiq.Wire.C116_address_partial",
    "Nimiq.Wire.C116_stale_violated",
    "Nimiq.Wire.C116_mismatch_violated",
    "Nimiq.Wire.C116_short_violated"
   ],
   "note": "violated by the code: stale address, mismatched pair, short slices; exact behaviour proved"
  },
  {
   "property": "C117",
   "status": "partial",
   "theorems": [
    "Nimiq.Accounts.C117_agree_partial",
    "Nimiq.Accounts.C117_small_partial",
    "Nimiq.Accounts.C117_split_violated"
   ],
   "note": "violated by the code: a vesting transaction over more than 2^63 splits amd64 and arm64 nodes; proved for values up to 2^63 and for contracts in range"
  },
  {
   "property": "C118",
   "status": "partial",
   "theorems": [
    "Nimiq.Accounts.C118_points_partial",
    "Nimiq.Accounts.C118_intact_partial",
    "Nimiq.Accounts.C118_no_money_partial",
    "Nimiq.Accounts.C118_twice_violated"
   ],
   "note": "Atomicity is false of the code: C118_twice_violated shows, for every plain transfer, that dying after the first write and pushing again debits the sender twice. Proved of every crash point: intact tree and frame (C118_intact_partial), step structure (C118_points_partial), no money appears (C118_no_money_partial, under the no-overflow hypotheses of C55)."
  },
  {
   "property": "C119",
   "status": "proved",
   "theorems": [
    "Nimiq.Beserial.C119_linear",
    "Nimiq.Beserial.C119_linear_in_read",
    "Nimiq.Beserial.C119_exact",
    "Nimiq.Wire.C119_block",
    "Nimiq.Wire.C119_tx",
    "Nimiq.Wire.C119_account",
    "Nimiq.Wire.C119_merklePath",
    "Nimiq.Wire.C119_message"
   ],
   "note": ""
  },
  {
   "property": "C120",
   "status": "proved",
   "theorems": [
    "Nimiq.Beserial.C120_writes_nothing_old",
    "Nimiq.Beserial.C120_slices_are_new",
    "Nimiq.Beserial.C120_input_can_be_reused",
    "Nimiq.Beserial.C120_value_can_be_changed",
    "Nimiq.Wire.C120_message",
    "Nimiq.Wire.C120_block"
   ],
   "note": "The decoder is modelled again over a heap of byte arrays in which slices are references and pop copies nothing; it is proved to refine the model without memory, to only add arrays, and to return references to distinct new arrays. Only byte slices are references (and net.IP): arrays lie in the value, strings are copied by the language."
  },
  {
   "property": "C121",
   "status": "proved",
   "theorems": [
    "Nimiq.Beserial.C121_writes_only_spare_capacity",
    "Nimiq.Beserial.C121_result_is_the_encoding",
    "Nimiq.Beserial.C121_no_spare_capacity",
    "Nimiq.Beserial.C121_decode_then_encode_in_place",
    "Nimiq.Beserial.C121_in_place",
    "Nimiq.Beserial.C121_second_result_overwrites_the_first",
    "Nimiq.Wire.C121_block",
    "Nimiq.Wire.C121_message"
   ],
   "note": ""
  },
  {
   "property": "C122",
   "status": "proved",
   "theorems": [
    "Nimiq.Accounts.C122_order",
    "Nimiq.Accounts.C122_order_free",
    "Nimiq.Accounts.C122_last_creation_wins",
    "Nimiq.Accounts.C122_order_matters"
   ],
   "note": "Generalises C66 to all blocks. C122_order_matters shows that the condition is needed."
  },
  {
   "property": "C123",
   "status": "proved",
   "theorems": [
    "Nimiq.Genesis.C123_root",
    "Nimiq.Genesis.C123_init",
    "Nimiq.Genesis.C123_replay",
    "Nimiq.Genesis.C123_header"
   ],
   "note": "For Blake2b-256 as defined in Blake/Spec.lean (RFC 7693); what the toml decoder makes of the toml files stays a parameter. The kernel evaluates the 2500 block hashes of the main tree."
  },
  {
   "property": "C124",
   "status": "partial",
   "theorems": [
    "Nimiq.Accounts.C124_no_nil",
    "Nimiq.Accounts.C124_refused_partial",
    "Nimiq.Accounts.C124_state_partial",
    "Nimiq.Accounts.C124_money_partial",
    "Nimiq.Accounts.C124_violated"
   ],
   "note": "Violated (C124_violated). Proved: Push without nil is the Push of the other properties; a nil transaction is never accepted; the exact state left behind (that of a crash after as many writes as there are transactions before it), which is a reachable one; only senders before the nil are touched; the exact amount of money lost."
  },
  {
   "property": "C125",
   "status": "partial",
   "theorems": [
    "Nimiq.Accounts.C125_get",
    "Nimiq.Accounts.C125_put",
    "Nimiq.Accounts.C125_library",
    "Nimiq.Accounts.C125_push_readable",
    "Nimiq.Accounts.C125_push_unreadable",
    "Nimiq.Accounts.C125_violated"
   ],
   "note": "Violated for unknown types (C125_violated). Proved: GetAccount answers exactly for entries that are empty or an account's encoding and panics on all others; what PutAccount of any implementation does; the state hash is still the Merkle root; Push on involved readable entries behaves as on an ordinary ledger and leaves foreign entries byte for byte; a block involving an unreadable entry is never accepted."
  },
  {
   "property": "C126",
   "status": "proved",
   "theorems": [
    "Nimiq.Wire.Nibbles.C126_agree",
    "Nimiq.Wire.Nibbles.C126_keys",
    "Nimiq.Wire.Nibbles.C126_prefixes"
   ],
   "note": "wire/nibbles.go is modelled statement by statement (buffers assigned at an index, panics outside of the range) and proved equal to the model of tree/nibbles."
  },
  {
   "property": "C127",
   "status": "partial",
   "theorems": [
    "Nimiq.Wire.Views.C127_values_partial",
    "Nimiq.Wire.Views.C127_own_partial",
    "Nimiq.Wire.Views.C127_shared_violated",
    "Nimiq.Wire.Views.C127_signed_again_violated"
   ],
   "note": "Values and the independent parts are proved for all transactions and writes; C127_shared_violated says exactly what a write to each shared part does, C127_signed_again_violated that signing again changes the proof of the extended form."
  },
  {
   "property": "C128",
   "status": "partial",
   "theorems": [
    "Nimiq.Accounts.C128_get_account",
    "Nimiq.Accounts.C128_linearizable_partial",
    "Nimiq.Accounts.C128_uninvolved_partial",
    "Nimiq.Accounts.C128_sum_violated"
   ],
   "note": "Single-account linearizability is proved for every block and every moment; that all accounts together show all coins is false of the code (C128_sum_violated)."
  },
  {
   "property": "C129",
   "status": "partial",
   "theorems": [
    "Nimiq.Accounts.C129_push_flush",
    "Nimiq.Accounts.C129_push_reads_partial",
    "Nimiq.Accounts.C129_push_hash_violated",
    "Nimiq.Accounts.C129_failed_push_violated",
    "Nimiq.Tree.C129_reads_partial",
    "Nimiq.Tree.C129_hash_violated",
    "Nimiq.Tree.C129_flush",
    "Nimiq.Tree.C129_panics_violated"
   ],
   "note": "Flush: proved. Giving up: reads proved unchanged; Hash and later puts are violated, with the exact hash proved in all cases."
  },
  {
   "property": "C130",
   "status": "proved",
   "theorems": [
    "Nimiq.Accounts.C130_local",
    "Nimiq.Accounts.C130_commute"
   ],
   "note": ""
  },
  {
   "property": "C131",
   "status": "proved",
   "theorems": [
    "Nimiq.Accounts.C131_push_hashes"
   ],
   "note": "Counted are the distinct strings the result depends on (C97 has a log of the actual calls for one PutEntry)."
  },
  {
   "property": "C132",
   "status": "partial",
   "theorems": [
    "Nimiq.Accounts.C132_exact",
    "Nimiq.Accounts.C132_none_partial",
    "Nimiq.Accounts.C132_stays",
    "Nimiq.Accounts.C132_violated"
   ],
   "note": "Violated by the code; exact characterisation proved (C132_exact), persistence (C132_stays), absence when every creation carries money (C132_none_partial), violation from every reachable state (C132_violated)."
  },
  {
   "property": "C133",
   "status": "partial",
   "theorems": [
    "Nimiq.Accounts.C133_kept_partial",
    "Nimiq.Accounts.C133_seize_violated"
   ],
   "note": "Violated by the code (C133_seize_violated: two transactions, from every reachable state, for every victim and amount); C133_kept_partial proves the rest."
  },
  {
   "property": "C134",
   "status": "partial",
   "theorems": [
    "Nimiq.Tree.Generic.C134_lost_update_violated",
    "Nimiq.Tree.Generic.C134_not_serial",
    "Nimiq.Tree.Generic.C134_serial_partial"
   ],
   "note": "The code violates it: C134_lost_update_violated gives, for every tree and every two keys whose common first hex digit no entry has, a schedule after which both entries read back but the hash is that of the mapping without the second, and putting the second again any number of times reports no change and repairs nothing; C134_not_serial: neither serial order can give that hash unless H has a collision. C134_serial_partial: the schedules in which the second call runs before the first has begun to update are equivalent to the serial order, on every reachable tree. Only schedules in which the whole second call runs between two store calls of the first are modelled."
  },
  {
   "property": "C135",
   "status": "partial",
   "theorems": [
    "Nimiq.Accounts.C135_own",
    "Nimiq.Accounts.C135_own_honest",
    "Nimiq.Accounts.C135_transfers_partial",
    "Nimiq.Accounts.C135_same_or_panic_partial",
    "Nimiq.Accounts.C135_contracts_violated"
   ],
   "note": "Proved for transfers from basic accounts (C135_transfers_partial), and in general up to a panic (C135_same_or_panic_partial). The code violates the rest: C135_contracts_violated, whenever the library's transactions would be accepted, a foreign one that spends from a contract or creates one makes Push panic, since the contracts assert the dynamic type *ExtendedTx."
  },
  {
   "property": "C136",
   "status": "partial",
   "theorems": [
    "Nimiq.Accounts.C136_bytes_partial",
    "Nimiq.Accounts.C136_accepted_data",
    "Nimiq.Accounts.C136_refused_violated"
   ],
   "note": "The code violates it: the type has the beneficiary only, 20 bytes, while the accepted layouts have 24, 36 or 44 (C136_accepted_data), so every push of a block with such a creation fails in every reachable state (C136_refused_violated). What holds is that the type itself marshals to the 20 bytes of the address and is read back (C136_bytes_partial)."
  },
  {
   "property": "C137",
   "status": "partial",
   "theorems": [
    "Nimiq.Tree.Hand.C137_panics_iff",
    "Nimiq.Tree.Hand.C137_put_child",
    "Nimiq.Tree.Hand.C137_kinds",
    "Nimiq.Tree.Hand.C137_leaves",
    "Nimiq.Tree.Hand.C137_leaf_violated",
    "Nimiq.Tree.Hand.C137_branches",
    "Nimiq.Tree.Hand.C137_slot_violated",
    "Nimiq.Tree.Hand.C137_binding_partial",
    "Nimiq.Tree.Hand.C137_tree"
   ],
   "note": "Exact: Hash panics iff something hashed as a nibble is 16 or more (C137_panics_iff), PutChild iff the suffix does not begin with a nibble (C137_put_child); leaves are hashed from the same bytes iff digits followed by value agree (C137_leaves), branches iff path and list of children agree (C137_branches; suffixes below 256, paths of any length although their length is truncated), a leaf and a branch never (C137_kinds). Violated: the border between path and value of a leaf is not hashed (C137_leaf_violated) and neither is the slot of a child (C137_slot_violated), for every hash function. Nodes as the tree builds them are determined by their hash (C137_binding_partial), and the model of the tree hashes its nodes in this way (C137_tree)."
  },
  {
   "property": "C138",
   "status": "partial",
   "theorems": [
    "Nimiq.Beserial.Rec.C138_decoded",
    "Nimiq.Beserial.Rec.C138_round_trip",
    "Nimiq.Beserial.Rec.C138_returns",
    "Nimiq.Beserial.Rec.C138_no_panic",
    "Nimiq.Beserial.Rec.C138_infinite_violated",
    "Nimiq.Beserial.Rec.C138_overflow_violated",
    "Nimiq.Beserial.Rec.C138_own_bytes_violated",
    "Nimiq.Beserial.Rec.C138_unexported_violated",
    "Nimiq.Beserial.Rec.C138_cyclic_violated",
    "Nimiq.Beserial.Rec.C138_unique",
    "Nimiq.Beserial.Rec.C138_truncated",
    "Nimiq.Beserial.Rec.C138_stream",
    "Nimiq.Beserial.Rec.C138_deterministic",
    "Nimiq.Beserial.Rec.C138_same_values",
    "Nimiq.Beserial.Rec.C138_same_decoder",
    "Nimiq.Beserial.Rec.C138_same_encoder",
    "Nimiq.Beserial.Rec.C138_marshal_returns",
    "Nimiq.Beserial.Rec.C138_marshal_no_panic"
   ],
   "note": "Proved: decoded values have the bytes that were read (C138_decoded, any declarations), trees are encoded as specified and decoded back (C138_round_trip), Unmarshal returns with linear depth if the declarations can be ranked (C138_returns), no panic for exported fields and plain byte arrays (C138_no_panic). Violated: types whose values contain one another without an optional pointer or slice in between are never decoded (C138_infinite_violated), with the pointer first Unmarshal never returns on any input (C138_overflow_violated), arrays of declared byte types and unexported numbers are encoded but panic when decoded (C138_own_bytes_violated, C138_unexported_violated), Marshal of a list returns iff the list has an end (C138_cyclic_violated). On types without names and methods this model is the same function as that of the other properties (C138_same_decoder, C138_same_encoder, C138_same_values). Marshal returns on every finite value, of any type (C138_marshal_returns), and panics on none if the tags can be parsed (C138_marshal_no_panic). Encodings are unique, prefix-free and readable from a stream, input that is cut off is rejected (C138_deterministic, C138_unique, C138_stream, C138_truncated)."
  },
  {
   "property": "C139",
   "status": "proved",
   "theorems": [
    "Nimiq.Accounts.C139_last_entries",
    "Nimiq.Accounts.C139_order",
    "Nimiq.Accounts.C139_superseded",
    "Nimiq.Accounts.C139_padding",
    "Nimiq.Accounts.C139_witness"
   ],
   "note": "C139_last_entries is about every state; C139_order, C139_superseded and C139_padding are the readable consequences. That blocks can be padded with superseded entries quoting anything is a malleability of the code, stated as it is."
  },
  {
   "property": "C140",
   "status": "partial",
   "theorems": [
    "Nimiq.Accounts.C140_alone",
    "Nimiq.Accounts.C140_returns",
    "Nimiq.Accounts.C140_intact",
    "Nimiq.Accounts.C140_disjoint_partial",
    "Nimiq.Accounts.C140_serial_partial",
    "Nimiq.Accounts.C140_stale",
    "Nimiq.Accounts.C140_double_spend_violated"
   ],
   "note": "Violated by the code, even if every tree operation were atomic: C140_double_spend_violated gives, for every account that can pay for either of two blocks but not for both, a schedule in which both are accepted, both recipients and miners are paid and the sender pays once; C140_stale says what happens in general to the first payment. What holds is proved: every call returns (C140_returns), the tree stays well-formed (C140_intact), and blocks that have no account in common behave as if alone, in any schedule, with the accounts and tree hash of any serial order (C140_disjoint_partial, C140_serial_partial)."
  },
  {
   "property": "C141",
   "status": "partial",
   "theorems": [
    "Nimiq.Accounts.C141_push_partial",
    "Nimiq.Accounts.C141_push_hash_violated",
    "Nimiq.Accounts.C141_push_panics_violated",
    "Nimiq.Tree.C141_reads_partial",
    "Nimiq.Tree.C141_hash_violated",
    "Nimiq.Tree.C141_panics_violated"
   ],
   "note": "Violated by the code. C141_panics_violated: an entry put on one overlay makes the first put of another key beginning with the same four bits on a second overlay panic; C141_push_panics_violated: the same with two blocks without transactions on new accounts. C141_hash_violated and C141_push_hash_violated: the tree on an untouched overlay hashes as if the other candidate's puts had been made on it. What holds is proved: as long as no call panics, every answer (C141_reads_partial) and every outcome and account (C141_push_partial) is that of the candidate being alone."
  },
  {
   "property": "C142",
   "status": "partial",
   "theorems": [
    "Nimiq.Beserial.C142_same_outcome",
    "Nimiq.Beserial.C142_short_same",
    "Nimiq.Beserial.C142_error_violated",
    "Nimiq.Wire.C142_protocol"
   ],
   "note": "Violated by the code in the kind of error only. C142_error_violated: a uint32 length of 2^31 with nothing behind it is io.ErrUnexpectedEOF on 64-bit platforms and an invalid length on 32-bit ones. Everything else is proved: for every type and input of at most 2^31-1 bytes the same value, the same bytes read, and an error or a panic on both or on neither (C142_same_outcome); for all types whose lengths have at most two bytes also the same error, for any input (C142_short_same), which includes all types of package wire and package genesis and every message (C142_protocol)."
  },
  {
   "property": "C143",
   "status": "partial",
   "theorems": [
    "Nimiq.Accounts.C143_push_partial",
    "Nimiq.Accounts.C143_any_accounts_violated",
    "Nimiq.Accounts.C143_money_violated",
    "Nimiq.Accounts.C143_push_again_partial",
    "Nimiq.Accounts.C143_paid_twice_violated",
    "Nimiq.Tree.C143_reads_partial",
    "Nimiq.Tree.C143_any_subset_violated",
    "Nimiq.Tree.C143_puts_partial",
    "Nimiq.Tree.C143_panics_violated"
   ],
   "note": "Violated by the code. C143_any_subset_violated, C143_any_accounts_violated: for every set of keys or addresses there are an order and a moment in which exactly these are new. C143_money_violated: a payment of everything an account has is seen with the money in both accounts, and also in neither; a crash at that moment makes it permanent. C143_paid_twice_violated: the block is pushed again after the interruption, and the payee is paid twice. C143_panics_violated: puts on the lower store can panic. The rest is proved with the exact entries for every moment: C143_reads_partial, C143_push_partial; and what later puts and blocks build on it, as long as they do not panic: C143_puts_partial, C143_push_again_partial. What Hash says of such a store is not covered."
  },
  {
   "property": "C144",
   "status": "partial",
   "theorems": [
    "Nimiq.Beserial.C144_exact_partial",
    "Nimiq.Beserial.C144_wraps",
    "Nimiq.Beserial.C144_any_value_violated",
    "Nimiq.Wire.C144_messages"
   ],
   "note": "Violated by values that do not fit: C144_any_value_violated (a slice of 65536 structs that share 65532 bytes has size 4 on a 32-bit platform, 32768 that share 64 KiB have a negative size, both without an error). Proved: the number is right up to a multiple of 2^w, lies in the range of int, and is right exactly if the encoding has fewer than 2^(w-1) bytes; errors and panics are the same on all platforms (C144_wraps). So whenever Marshal's result is one that a Go slice can hold, Size is exact or an error (C144_exact_partial). MarshalMessage is not affected: no message that it accepts shares memory, and its buffer has exactly the length of its result (C144_messages)."
  },
  {
   "property": "C145",
   "status": "partial",
   "theorems": [
    "Nimiq.Accounts.C145_text_determines",
    "Nimiq.Accounts.C145_overspend",
    "Nimiq.Accounts.C145_mismatch",
    "Nimiq.Accounts.C145_hex_address",
    "Nimiq.Accounts.C145_prune_address",
    "Nimiq.Accounts.C145_unknown_determines",
    "Nimiq.Accounts.C145_unknown_partial",
    "Nimiq.Accounts.C145_unknown_violated",
    "Nimiq.Accounts.C145_errors"
   ],
   "note": "Violated by UnknownMessageError, which is an int64: for every type from 2^63 on, a number taken from the network, the text has a minus sign and another number (C145_unknown_violated); below it is right (C145_unknown_partial), and the texts of different types are different in any case (C145_unknown_determines). The texts of Push's errors determine the errors (C145_text_determines, C145_errors); C145_overspend, C145_mismatch, C145_hex_address and C145_prune_address say what can be read in them."
  },
  {
   "property": "C146",
   "status": "partial",
   "theorems": [
    "Nimiq.Beserial.Rec.C146_exact_partial",
    "Nimiq.Beserial.Rec.C146_marshal",
    "Nimiq.Beserial.Rec.C146_decoded",
    "Nimiq.Beserial.Rec.C146_same_size",
    "Nimiq.Beserial.Rec.C146_cyclic_violated",
    "Nimiq.Beserial.Rec.C146_returns",
    "Nimiq.Beserial.Rec.C146_no_panic",
    "Nimiq.Beserial.Rec.C146_sound"
   ],
   "note": "Proved: for every declaration and every value that is a tree and has an encoding, Size is the length of the encoding, or an error iff there is a bool in the value (C146_exact_partial); it is what Marshal appends (C146_marshal) and what Unmarshal read (C146_decoded); without names and methods it is the Size of the other properties (C146_same_size). Violated: values with bools (Marshal encodes them), and cyclic lists: Size returns iff the list has an end, then two bytes per node (C146_cyclic_violated). Size returns on every finite value, of any type (C146_returns), and panics on none if the tags can be parsed (C146_no_panic). If Size returns n, Marshal appends n bytes, also for values without a specified encoding (C146_sound)."
  }
 ]
}