{"claims": [
{"property": "C01", "status": "proved", "theorems": ["MerkleBit.C01_insert_empty_reads_back"], "note": ""},
{"property": "C02", "status": "partial", "theorems": ["MerkleBit.C02_insert_exact", "MerkleBit.C02_batch_reads_back", "MerkleBit.C02_insert_overrides_partial", "MerkleBit.C02_insert_overrides_one_new", "MerkleBit.C02_insert_overrides_clear", "MerkleBit.C02_insert_overrides_spread", "MerkleBit.C02_insert_overrides_byte", "MerkleBit.C02_false", "MerkleBit.C02_false_refused"], "note": "False of the code for batches that straddle a branch (witnesses: a key outside the batch loses its value; a batch of distinct keys is refused as duplicate). Proved for every batch that opens every place where one of its keys belongs, and exactly these give the root of the new contents (C02_insert_exact); hence for batches that straddle no branch, batches with at most one new key, batches whose new keys share their first byte with at most one stored key, and one-byte keys; and for every accepted batch on any returned root, the keys of the batch read their new values."},
{"property": "C03", "status": "proved", "theorems": ["MerkleBit.C03_old_versions_survive", "MerkleBit.C03_versions_keep_contents"], "note": ""},
{"property": "C04", "status": "partial", "theorems": ["MerkleBit.C04_root_history_independent_events_partial", "MerkleBit.C04_insert_exact", "MerkleBit.C04_root_history_independent_partial", "MerkleBit.C04_false"], "note": "False of the code once a straddling batch was accepted (witness). Proved for all versions built by batches that open every place where one of their keys belongs, across databases; an accepted insert returns the root of its contents exactly if its batch does (C04_insert_exact)."},
{"property": "C05", "status": "proved", "theorems": ["MerkleBit.C05_root_binds_contents_events_partial", "MerkleBit.C05_equal_roots_read_equal", "MerkleBit.C05_root_binds_contents"], "note": "Contents as inserted for the roots of the ledger (not built by straddling batches); what is read, and the set of inserted keys, for every returned root; within and across databases."},
{"property": "C06", "status": "partial", "theorems": ["MerkleBit.C06_values_were_inserted", "MerkleBit.C06_false", "MerkleBit.C06_get_sound_partial"], "note": "False of the code for roots built by straddling batches (witness: an overwritten value). Proved for all other versions; for every returned root: the requested keys, and every value was inserted for its key on the way to the root."},
{"property": "C07", "status": "partial", "theorems": ["MerkleBit.C07_get_exact", "MerkleBit.C07_get_complete_partial", "MerkleBit.C07_get_complete_one_absent", "MerkleBit.C07_get_complete_clear", "MerkleBit.C07_get_complete_spread", "MerkleBit.C07_get_complete_byte", "MerkleBit.C07_false"], "note": "False of the code for requests that straddle a branch (witness). Proved exactly: a stored key of a request is found if and only if the request opens its places (C07_get_exact); hence all requests that straddle no branch, requests with at most one absent key, when absent keys share their first byte with at most one stored key, and for one-byte keys."},
{"property": "C08", "status": "partial", "theorems": ["MerkleBit.C08_values_were_inserted", "MerkleBit.C08_false", "MerkleBit.C08_get_one_exact_partial"], "note": "False of the code for roots built by straddling batches (witnesses: a stored key reads None; an overwritten value is read). Proved for all other versions; for every returned root: values read were inserted on the way, keys never inserted are not found."},
{"property": "C09", "status": "partial", "theorems": ["MerkleBit.C09_get_agrees_all_roots", "MerkleBit.C09_false", "MerkleBit.C09_get_agrees_get_one_partial", "MerkleBit.C09_get_values_agree_partial"], "note": "False of the code for roots built by straddling batches (witness: get finds the value, get_one exceeds the depth limit). Proved for all other versions; for every returned root: whenever get_one answers, get of that key answers the same."},
{"property": "C10", "status": "proved", "theorems": ["MerkleBit.C10_insert_one_is_insert"], "note": ""},
{"property": "C11", "status": "partial", "theorems": ["MerkleBit.C11_batching_irrelevant_partial", "MerkleBit.C11_batching_irrelevant_fresh", "MerkleBit.C11_false", "MerkleBit.C11_batching_exact"], "note": "False of the code for batches that straddle a branch (witness: refused at once, accepted one at a time). Proved exactly: one at a time succeeds in every order, and at once gives the same root if and only if the batch opens every place where one of its keys belongs (C11_batching_exact); without proviso on top of nothing."},
{"property": "C12", "status": "proved", "theorems": ["MerkleBit.C12_bad_arguments"], "note": ""},
{"property": "C13", "status": "proved", "theorems": ["MerkleBit.C13_duplicates_rejected", "MerkleBit.C13_duplicates_harmless"], "note": ""},
{"property": "C14", "status": "partial", "theorems": ["MerkleBit.C14_unknown_root_rejected_partial", "MerkleBit.C14_unknown_root_harmless_partial", "MerkleBit.C14_false"], "note": "False of the in-memory database when the unknown root is the location of a leaf the call itself writes (witness). Proved in every other case, for every database meeting the contract."},
{"property": "C15", "status": "partial", "theorems": ["MerkleBit.C15_generated_proofs_verify_partial", "MerkleBit.C15_generated_proofs_verify_faulty_partial", "MerkleBit.C15_readable_is_provable", "MerkleBit.C15_false"], "note": "False of the code for roots built by straddling batches (witness: no proof for a stored key). Proved for all other versions; for every returned root: what get_one reads has a proof, and generated proofs verify."},
{"property": "C16", "status": "partial", "theorems": ["MerkleBit.C16_proofs_sound_partial", "MerkleBit.C16_accepted_were_inserted", "MerkleBit.C16_false"], "note": "False of the code for roots built by straddling batches (witness: a proof of an overwritten value verifies). Proved for all other versions; for every returned root: what verifies was inserted for the key on the way to the root."},
{"property": "C17", "status": "proved", "theorems": ["MerkleBit.C17_no_proof_for_absent_key", "MerkleBit.C17_no_proof_for_uninserted_key"], "note": "For versions of the ledger in terms of their contents, and for every returned root in terms of the keys inserted on the way to it."},
{"property": "C18", "status": "partial", "theorems": ["MerkleBit.C18_proofs_unique_partial", "MerkleBit.C18_only_generated_proof_partial", "MerkleBit.C18_false"], "note": "False of the code for roots built by straddling batches (witness: two proofs of one pair). Proved for all other versions."},
{"property": "C19", "status": "partial", "theorems": ["MerkleBit.C19_remove_keeps_others_partial", "MerkleBit.C19_live_roots_readable_partial", "MerkleBit.C19_false"], "note": "False of the code: writing a branch again resets its reference count to one, after which a removal deletes nodes another live root needs (witness). Proved for all histories, with failed calls, crashes and inserts with any arguments that are refused, in which no accepted insert writes again a group of two or more pairs that a live version has, in particular when no inserted pair is already in a live version."},
{"property": "C20", "status": "proved", "theorems": ["MerkleBit.C20_sole_root_removed"], "note": ""},
{"property": "C21", "status": "partial", "theorems": ["MerkleBit.C21_all_removed_empty_partial", "MerkleBit.C21_nothing_stale_partial", "MerkleBit.C21_false"], "note": "False of the code: inserting a pair again that a live version has leaks its data node (witness). Proved for all histories of successful calls in which no inserted pair is already in a live version."},
{"property": "C22", "status": "proved", "theorems": ["MerkleBit.C22_remove_unknown", "MerkleBit.C22_remove_unknown_noop", "MerkleBit.C22_remove_unknown_hashdb"], "note": ""},
{"property": "C23", "status": "partial", "theorems": ["MerkleBit.C23_height_partial", "MerkleBit.C23_reads_within_limit_partial", "MerkleBit.C23_inserts_within_limit_partial", "MerkleBit.C23_false"], "note": "False of the code for roots built by straddling batches (witness: 17 branches over 16-bit keys). Proved for all other versions, for every database meeting the contract."},
{"property": "C24", "status": "partial", "theorems": ["MerkleBit.C24_insert_up_to_limit", "MerkleBit.C24_below_limit_partial", "MerkleBit.C24_above_limit", "MerkleBit.C24_limit_not_uniform", "MerkleBit.C24_false"], "note": "False of the code: get and insert accept trees exactly as high as the limit, get_one and generate_inclusion_proof refuse them (general theorem and witness). Proved: all agree strictly below and strictly above the limit."},
{"property": "C25", "status": "proved", "theorems": ["MerkleBit.C25_every_call_terminates"], "note": ""},
{"property": "C26", "status": "partial", "theorems": ["MerkleBit.C26_insert_errors", "MerkleBit.C26_read_errors_partial", "MerkleBit.C26_remove_succeeds", "MerkleBit.C26_verify_errors"], "note": "False of the code for depth limits with limit * (N + 1) above isize::MAX, under which generate_inclusion_proof always panics (C70_no_room_no_proofs, C70_false). Proved under all other limits, and without proviso for insert, remove, get, get_one and verify_inclusion_proof, for every root ever returned, including those built by straddling batches. Counters are natural numbers in the model; C71 covers 64-bit counters."},
{"property": "C27", "status": "proved", "theorems": ["MerkleBit.C27_choose_zero", "MerkleBit.C27_fast_log_2"], "note": ""},
{"property": "C28", "status": "proved", "theorems": ["MerkleBit.C28_calc_min_split_index", "MerkleBit.C28_empty"], "note": ""},
{"property": "C29", "status": "proved", "theorems": ["MerkleBit.C29_split_pairs"], "note": ""},
{"property": "C30", "status": "partial", "theorems": ["MerkleBit.C30_check_descendants_false", "MerkleBit.C30_check_descendants_partial", "MerkleBit.C30_single", "MerkleBit.C30_check_descendants_exact"], "note": "False of the code in general (witness proved). What is selected is stated in every case: the descendants, or all keys that share the bytes the strides reach; the former whenever the 8-bit stride reaches the byte of the split bit or no key first differs there, and always for one key."},
{"property": "C31", "status": "proved", "theorems": ["MerkleBit.C31_generate_tree_ref_queue", "MerkleBit.C31_duplicate"], "note": ""},
{"property": "C32", "status": "partial", "theorems": ["MerkleBit.C32_count_and_key", "MerkleBit.C32_branches_describe_partial", "MerkleBit.C32_root_lists_keys", "MerkleBit.C32_false"], "note": "False of the code for roots built by straddling batches: the split index (witness). Proved: count and smallest key under every root ever returned; all of it under every version of the ledger."},
{"property": "C33", "status": "proved", "theorems": ["MerkleBit.C33_nodes_at_their_hash", "MerkleBit.C33_contents_never_change", "MerkleBit.C33_inserts_only_add", "MerkleBit.C33_removes_add_nothing"], "note": "For all histories of inserts and removes with any arguments and outcomes, with crashes."},
{"property": "C34", "status": "proved", "theorems": ["MerkleBit.C34_insert_order_irrelevant", "MerkleBit.C34_get_order_irrelevant"], "note": ""},
{"property": "C35", "status": "proved", "theorems": ["MerkleBit.C35_insert_agrees", "MerkleBit.C35_reads_agree", "MerkleBit.C35_histories_agree", "MerkleBit.C35_hash_and_rocks_agree", "MerkleBit.C35_unknown_roots_differ"], "note": "For previous roots that were returned before; for unknown previous roots the backends differ (witness C35_unknown_roots_differ)."},
{"property": "C36", "status": "proved", "theorems": ["MerkleBit.C36_failed_insert_harmless", "MerkleBit.C36_interrupted_insert_harmless", "MerkleBit.C36_retry_after_crash"], "note": "For every root ever returned, every database meeting the contract, every failing call and every crash point (number of writes done)."},
{"property": "C37", "status": "partial", "theorems": ["MerkleBit.C37_failed_remove_harmless_partial", "MerkleBit.C37_interrupted_remove_harmless_partial", "MerkleBit.C37_false"], "note": "False of the code for the same reason as C19 (witness with a crash after one write). Proved for every crash point and failing call in the histories of C19."},
{"property": "C38", "status": "proved", "theorems": ["MerkleBit.C38_hash_inputs_injective", "MerkleBit.C38_hash_of_bytes", "MerkleBit.C38_collision_free"], "note": ""},
{"property": "C39", "status": "partial", "theorems": ["MerkleBit.C39_false", "MerkleBit.C39_keeps_nodes_partial"], "note": "False of the code: nodes written before the failure stay (witness). Proved: nothing stored is lost or altered except in its reference count, and calls refused for the lengths of their arguments change nothing."},
{"property": "C40", "status": "partial", "theorems": ["MerkleBit.C40_counts_exact_partial", "MerkleBit.C40_counts_cover_partial", "MerkleBit.C40_false"], "note": "False of the code (witness: the history of C19). Proved: counts are exact in the histories of C21, and cover the pointers held by live versions in those of C19."},
{"property": "C41", "status": "partial", "theorems": ["MerkleBit.C41_reinsert_same_root_partial", "MerkleBit.C41_false"], "note": "False of the code for roots built by straddling batches (witness). Proved for all other versions."},
{"property": "C42", "status": "proved", "theorems": ["MerkleBit.C42_typed_values_round_trip", "MerkleBit.C42_unencodable_rejected", "MerkleBit.C42_unencodable_harmless"], "note": ""},
{"property": "C43", "status": "proved", "theorems": ["MerkleBit.C43_node_round_trip", "MerkleBit.C43_encodings_differ", "MerkleBit.C43_truncated_rejected", "MerkleBit.C43_decode_total", "MerkleBit.C43_array_lengths", "MerkleBit.C43_parts_round_trip", "MerkleBit.C43_bincode_lawful", "MerkleBit.C43_layout_written", "MerkleBit.C43_layout_read", "MerkleBit.C43_sizes"], "note": "For the documented bincode format; numbers of a node are u64/usize values (Fits). The proofs about the RocksDB backend use bincode extended to the unbounded numbers of the model."},
{"property": "C44", "status": "proved", "theorems": ["MerkleBit.C44_truncate_or_pad", "MerkleBit.C44_prefixes_kept", "MerkleBit.C44_only_prefix_matters", "MerkleBit.C44_blake2b", "MerkleBit.C44_collision_free", "MerkleBit.C44_collision_free_all", "MerkleBit.C44_squeezed", "MerkleBit.C44_squeezed_collision_free"], "note": "For DefaultHasher, FxHasher, SeaHasher, SHA-256 and the Digest adapter. BLAKE2b takes the digest whole and panics when its length is not N. Keccak and SHA-3 fill all N bytes by squeezing and have no adapter logic."},
{"property": "C45", "status": "proved", "theorems": ["MerkleBit.C45_unknown_root_reads_nothing"], "note": ""},
{"property": "C46", "status": "partial", "theorems": ["MerkleBit.C46_slice_permuted", "MerkleBit.C46_repeated_get", "MerkleBit.C46_repeated_insert_partial", "MerkleBit.C46_false"], "note": "False of insert for unsorted keys: the key slice is sorted in place, the values are not, so repeating the call stores values under the wrong keys (witness). Proved: the slice is always permuted, get can be repeated, insert with ascending keys leaves the slice alone."},
{"property": "C47", "status": "partial", "theorems": ["MerkleBit.C47_live_roots_accept_partial", "MerkleBit.C47_live_roots_extend_partial", "MerkleBit.C47_false"], "note": "False of the code after the removal of C19 damaged a live root (witness: insert fails with 'Failed to find node in database.'). Proved for the histories of C19 and batches that straddle no branch."},
{"property": "C48", "status": "partial", "theorems": ["MerkleBit.C48_storage_is_canonical_partial", "MerkleBit.C48_false"], "note": "False of the code when an insert writes again a pair that a live version has (witness: same live contents, different databases). Proved for all histories of successful calls in which no inserted pair is already in a live version."},
{"property": "C49", "status": "partial", "theorems": ["MerkleBit.C49_remove_undoes_insert_partial", "MerkleBit.C49_removals_commute_partial", "MerkleBit.C49_false"], "note": "False of the code when the insert writes again a pair that a live version has: removing the root it returned loses nodes (witness). Proved for the histories of C21."},
{"property": "C50", "status": "partial", "theorems": ["MerkleBit.C50_removed_root_partial", "MerkleBit.C50_false"], "note": "False of the code (witness: a removed root that is a part of a live version reads nothing, in the history of C19_false). Proved for the histories of C21."},
{"property": "C51", "status": "partial", "theorems": ["MerkleBit.C51_sole_version_size_partial", "MerkleBit.C51_false"], "note": "False of the code: leaked data nodes (witness: the history of C21_false and one more insert). Proved for the histories of C21."},
{"property": "C52", "status": "proved", "theorems": ["MerkleBit.C52_insert_growth", "MerkleBit.C52_growth_of_versions"], "note": "For every contract database, state, arguments and outcome; the bound m(8N+2), independent of the depth limit, for the histories of C21."},
{"property": "C53", "status": "proved", "theorems": ["MerkleBit.C53_insert_writes"], "note": ""},
{"property": "C54", "status": "proved", "theorems": ["MerkleBit.C54_get_one_reads", "MerkleBit.C54_proof_reads", "MerkleBit.C54_get_reads"], "note": ""},
{"property": "C55", "status": "proved", "theorems": ["MerkleBit.C55_proof_length"], "note": ""},
{"property": "C56", "status": "proved", "theorems": ["MerkleBit.C56_references", "MerkleBit.C56_references_step", "MerkleBit.C56_counts"], "note": ""},
{"property": "C57", "status": "partial", "theorems": ["MerkleBit.C57_false", "MerkleBit.C57_branches_and_leaves_unreadable", "MerkleBit.C57_data_round_trip_partial", "MerkleBit.C57_what_is_read", "MerkleBit.C57_what_is_written", "MerkleBit.C57_only_whole_texts", "MerkleBit.C57_cbor_texts", "MerkleBit.C57_written", "MerkleBit.C57_nothing_is_read", "MerkleBit.C57_returned_roots_unreadable"], "note": "False of the code: Array<N> serializes as a sequence and deserializes only from a byte string, so with json, cbor, yaml, pickle and ron no branch and no leaf is ever read back; on RocksDB every returned root is unreadable (proved for all formats of this kind and all sequences of inserts; JSON and CBOR as concrete instances). Proved for data nodes, and for bincode in C43; and whatever is read says, field by field, what the node read holds."},
{"property": "C58", "status": "proved", "theorems": ["MerkleBit.C58_no_root_reads_two_values"], "note": ""},
{"property": "C59", "status": "partial", "theorems": ["MerkleBit.C59_lost_data_is_not_wrong_data_partial", "MerkleBit.C59_readable_is_provable_partial", "MerkleBit.C59_proofs_sound_partial", "MerkleBit.C59_values_were_inserted", "MerkleBit.C59_accepted_were_inserted", "MerkleBit.C59_false"], "note": "False of the code for roots built by straddling batches, even when nothing was lost (witness). Proved for the roots of all other batches, in all histories of calls with any arguments and outcomes and with crashes; and for every returned root: what is read, proved or accepted was inserted for its key on the way to the root."},
{"property": "C60", "status": "proved", "theorems": ["MerkleBit.C60_fresh_insert_always_works"], "note": ""},
{"property": "C61", "status": "proved", "theorems": ["MerkleBit.C61_inserts_take_nothing_away", "MerkleBit.C61_interrupted_inserts_take_nothing_away"], "note": ""},
{"property": "C62", "status": "partial", "theorems": ["MerkleBit.C62_readable_roots_extend_partial", "MerkleBit.C62_false"], "note": "False of the code for straddling batches (witness: a key outside the batch loses its value). Proved for all other batches, in all histories of calls with any arguments and outcomes and with crashes."},
{"property": "C63", "status": "partial", "theorems": ["MerkleBit.C63_reinsert_repairs_partial", "MerkleBit.C63_false"], "note": "False of the code for roots built by straddling batches (witness: another root is returned and the lost key stays lost). Proved for the roots of all other batches, in all histories of calls with any arguments and outcomes and with crashes."},
{"property": "C64", "status": "proved", "theorems": ["MerkleBit.C64_reads_under_a_limit", "MerkleBit.C64_writes_under_a_limit", "MerkleBit.C64_first_call_unlimited"], "note": ""},
{"property": "C65", "status": "proved", "theorems": ["MerkleBit.C65_hash_tree_open", "MerkleBit.C65_hash_tree_session", "MerkleBit.C65_rocks_tree_session"], "note": "For one pair; sessions with batches are C01, C15, C20. The only hypothesis on the hasher is that the data node and the leaf of the pair get different locations. RocksTree: while no call of RocksDB fails."},
{"property": "C66", "status": "proved", "theorems": ["MerkleBit.C66_nothing_queued", "MerkleBit.C66_reopening_changes_nothing", "MerkleBit.C66_after_an_error_differs"], "note": "For all databases that meet the contract; reopening for RocksDB while none of its calls fails (crashes and failures are part of the histories of C03, C34 and others). C66_after_an_error_differs shows that the condition that the write returned Ok is needed."},
{"property": "C67", "status": "proved", "theorems": ["MerkleBit.C67_accepted_insert_reads_back"], "note": ""},
{"property": "C68", "status": "proved", "theorems": ["MerkleBit.C68_nothing_read_that_was_not_inserted"], "note": ""},
{"property": "C69", "status": "proved", "theorems": ["MerkleBit.C69_readable_iff_provable"], "note": ""},
{"property": "C70", "status": "partial", "theorems": ["MerkleBit.C70_raising_the_limit_partial", "MerkleBit.C70_no_room_no_proofs", "MerkleBit.C70_false"], "note": "False of the code: generate_inclusion_proof reserves room for as many entries as the depth limit, and panics with capacity overflow when that is more than isize::MAX bytes (general theorem and witness). Proved for reads under all limits and for proofs under all other limits."},
{"property": "C71", "status": "proved", "theorems": ["MerkleBit.C71_reads", "MerkleBit.C71_inserts", "MerkleBit.C71_histories", "MerkleBit.C71_counters", "MerkleBit.C71_unbounded", "MerkleBit.C71_checked", "MerkleBit.C71_large_batches_differ", "MerkleBit.C71_full_counters_differ"], "note": ""},
{"property": "C72", "status": "proved", "theorems": ["MerkleBit.C72_one_key_at_a_time", "MerkleBit.C72_careful_sessions", "MerkleBit.C72_hash_tree", "MerkleBit.C72_rocks_tree", "MerkleBit.C72_batches_differ"], "note": ""},
{"property": "C73", "status": "proved", "theorems": ["MerkleBit.C73_remove_stays_below", "MerkleBit.C73_interrupted_remove_stays_below", "MerkleBit.C73_reads_look_below", "MerkleBit.C73_remove_spares_unrelated", "MerkleBit.C73_shared_places_matter"], "note": ""},
{"property": "C74", "status": "proved", "theorems": ["MerkleBit.C74_work_of_remove"], "note": ""},
{"property": "C75", "status": "proved", "theorems": ["MerkleBit.C75_places_bind", "MerkleBit.C75_made_up_roots"], "note": ""},
{"property": "C76", "status": "proved", "theorems": ["MerkleBit.C76_tidy_sessions", "MerkleBit.C76_new_pairs", "MerkleBit.C76_storage_is_canonical", "MerkleBit.C76_clean_slate", "MerkleBit.C76_hash_tree", "MerkleBit.C76_rocks_tree", "MerkleBit.C76_stored_pairs_differ"], "note": ""},
{"property": "C77", "status": "proved", "theorems": ["MerkleBit.C77_effect_of_insert", "MerkleBit.C77_new_keys"], "note": ""},
{"property": "C78", "status": "proved", "theorems": ["MerkleBit.C78_effect_of_remove", "MerkleBit.C78_versions_are_trees"], "note": ""},
{"property": "C79", "status": "proved", "theorems": ["MerkleBit.C79_effect_of_insert", "MerkleBit.C79_databases", "MerkleBit.C79_databases_differ"], "note": ""},
{"property": "C80", "status": "proved", "theorems": ["MerkleBit.C80_read_by_counts", "MerkleBit.C80_read_after_remove", "MerkleBit.C80_shared_roots"], "note": ""},
{"property": "C81", "status": "proved", "theorems": ["MerkleBit.C81_insert_needs", "MerkleBit.C81_values_do_not_matter"], "note": ""},
{"property": "C82", "status": "proved", "theorems": ["MerkleBit.C82_same_nodes", "MerkleBit.C82_same_reads", "MerkleBit.C82_same_answers", "MerkleBit.C82_hash_and_rocks", "MerkleBit.C82_two_serializations"], "note": ""},
{"property": "C83", "status": "proved", "theorems": ["MerkleBit.C83_any_session", "MerkleBit.C83_hash_tree", "MerkleBit.C83_rocks_tree"], "note": ""},
{"property": "C84", "status": "proved", "theorems": ["MerkleBit.C84_hashes_are_roots", "MerkleBit.C84_canonical", "MerkleBit.C84_insert_on_part", "MerkleBit.C84_equal_hashes"], "note": ""},
{"property": "C85", "status": "proved", "theorems": ["MerkleBit.C85_get_exact", "MerkleBit.C85_reached", "MerkleBit.C85_agrees_with_get_one", "MerkleBit.C85_leaves_have_data", "MerkleBit.C85_gentle_get", "MerkleBit.C85_roots_are_no_data", "MerkleBit.C85_lost_data_fails_all", "MerkleBit.C85_queued_leaf_comes_back"], "note": ""},
{"property": "C86", "status": "partial", "theorems": ["MerkleBit.C86_refused_takes_nothing", "MerkleBit.C86_refused_does_no_harm_partial", "MerkleBit.C86_refused_is_queued", "MerkleBit.C86_removal_after_refused", "MerkleBit.C86_false"], "note": "False of RocksDB if the database is not reopened after the error (witness: the next removal writes what the refused insert queued, which brings a deleted branch back without the references it had, and removing that root again takes a key from another version). Proved for every database that shows writes at once (HashDB), with all states and later removals; for databases that queue writes: nothing shows until the next successful call (C86_refused_is_queued), and removals of live versions of careful histories do no harm (C86_removal_after_refused; C76 for whole sessions)."},
{"property": "C87", "status": "proved", "theorems": ["MerkleBit.C87_counts_exact", "MerkleBit.C87_stored", "MerkleBit.C87_all_removed", "MerkleBit.C87_queued_leaves_only_data", "MerkleBit.C87_storage_is_determined", "MerkleBit.C87_nothing_left_if_new", "MerkleBit.C87_keeps_versions"], "note": ""},
{"property": "C88", "status": "proved", "theorems": ["MerkleBit.C88_unchanged", "MerkleBit.C88_after_insert", "MerkleBit.C88_own_update", "MerkleBit.C88_other_update", "MerkleBit.C88_client", "MerkleBit.C88_client_grows", "MerkleBit.C88_mirror"], "note": ""},
{"property": "C89", "status": "proved", "theorems": ["MerkleBit.C89_root_is_sparse_root", "MerkleBit.C89_proof_is_sparse_path", "MerkleBit.C89_live_root", "MerkleBit.C89_live_proof", "MerkleBit.C89_insert_exact", "MerkleBit.C89_fresh_root"], "note": ""},
{"property": "C90", "status": "proved", "theorems": ["MerkleBit.C90_reference", "MerkleBit.C90_reference_exact", "MerkleBit.C90_reference_with_removals", "MerkleBit.C90_hash_tree", "MerkleBit.C90_rocks_tree", "MerkleBit.C90_hash_tree_exact", "MerkleBit.C90_rocks_tree_exact", "MerkleBit.C90_hash_tree_with_removals", "MerkleBit.C90_rocks_tree_with_removals", "MerkleBit.C90_again_differs"], "note": ""},
{"property": "C91", "status": "proved", "theorems": ["MerkleBit.C91_every_root", "MerkleBit.C91_every_part", "MerkleBit.C91_parts_extend", "MerkleBit.C91_data", "MerkleBit.C91_every_root_again", "MerkleBit.C91_every_part_again"], "note": ""},
{"property": "C92", "status": "proved", "theorems": ["MerkleBit.C92_any_root", "MerkleBit.C92_hash_tree", "MerkleBit.C92_rocks_tree", "MerkleBit.C92_any_root_again", "MerkleBit.C92_hash_tree_again", "MerkleBit.C92_rocks_tree_again"], "note": ""},
{"property": "C93", "status": "proved", "theorems": ["MerkleBit.C93_inserts_leave_nothing_incomplete", "MerkleBit.C93_reads_under_any_root", "MerkleBit.C93_removals_leave_nothing_incomplete", "MerkleBit.C93_interrupted_removals_leave_nothing_incomplete", "MerkleBit.C93_inserts_after_removals_leave_nothing_incomplete", "MerkleBit.C93_careless_removals_differ"], "note": ""},
{"property": "C94", "status": "proved", "theorems": ["MerkleBit.C94_remove_all_or_nothing", "MerkleBit.C94_removed_version_all_or_nothing", "MerkleBit.C94_other_versions_stay", "MerkleBit.C94_any_removal_all_or_nothing", "MerkleBit.C94_interrupted_remove_leaks", "MerkleBit.C94_refused_inserts_differ"], "note": ""},
{"property": "C95", "status": "proved", "theorems": ["MerkleBit.C95_inserts_destroy_nothing", "MerkleBit.C95_in_full_or_not_at_all", "MerkleBit.C95_interrupted_insert_all_or_nothing", "MerkleBit.C95_inserts_change_no_reads", "MerkleBit.C95_databases_never_contradict"], "note": ""}
]}
