{
 "claims": [
  {
   "property": "C01",
   "status": "proved",
   "theorems": [
    "Katie.Props.C01_children_parent_sibling",
    "Katie.Props.C01_root",
    "Katie.Props.C01_leaf_no_children",
    "Katie.Props.C01_numbering_bijective",
    "Katie.Props.C01_paths",
    "Katie.Props.C01_leaf",
    "Katie.Props.C01_full_subtrees",
    "Katie.Props.C01_chunk",
    "Katie.Props.C01_uint64",
    "Katie.Props.C01_uint64_batch",
    "Katie.Props.C01_uint64_chunk",
    "Katie.Props.C01_uint64_sharp"
   ],
   "note": "First for unbounded numbers, then (C01_uint64...) for the 64-bit arithmetic of the code and all trees up to MaxTreeSize, which is the greatest bound possible."
  },
  {
   "property": "C02",
   "status": "proved",
   "theorems": [
    "Katie.Props.C02_append_step",
    "Katie.Props.C02_append_is_merkle"
   ],
   "note": ""
  },
  {
   "property": "C03",
   "status": "proved",
   "theorems": [
    "Katie.Props.C03_stored_log",
    "Katie.Props.C03_reads_stable"
   ],
   "note": "Store reads are assumed to fail only by a missing key."
  },
  {
   "property": "C04",
   "status": "proved",
   "theorems": [
    "Katie.Props.C04_honest_proof_verifies"
   ],
   "note": "Also for proofs of an earlier size produced by a longer stored log."
  },
  {
   "property": "C05",
   "status": "proved",
   "theorems": [
    "Katie.Props.C05_inclusion_sound",
    "Katie.Props.C05_proof_unique"
   ],
   "note": "Conclusion holds unless an explicitly listed pair of hashed strings collides."
  },
  {
   "property": "C06",
   "status": "proved",
   "theorems": [
    "Katie.Props.C06_consistency_sound",
    "Katie.Props.C06_append_only",
    "Katie.Props.C06_shrinking_tree_panics"
   ],
   "note": "Conclusion holds unless an explicitly listed pair of hashed strings collides. Evaluate itself does not check that the new size is not smaller than the retained one; C06_shrinking_tree_panics records that."
  },
  {
   "property": "C07",
   "status": "proved",
   "theorems": [
    "Katie.Props.C07_root_is_trie_hash",
    "Katie.Props.C07_history_independent",
    "Katie.Props.C07_root_injective"
   ],
   "note": "Histories of non-empty batches (the first may be empty); version numbers below 2^64, fewer than 2^54 entries. Injectivity up to an explicit collision or all-zero digest."
  },
  {
   "property": "C08",
   "status": "proved",
   "theorems": [
    "Katie.Props.C08_mutate_iff_valid",
    "Katie.Props.C08_mutate_is_map_update"
   ],
   "note": "Same bounds as C07."
  },
  {
   "property": "C09",
   "status": "partial",
   "theorems": [
    "Katie.Props.C09_search_partial",
    "Katie.Props.C09_bad_request_refused",
    "Katie.Props.C09_empty_list_does_not_verify",
    "Katie.Props.C09_repeated_rejected"
   ],
   "note": "False for an empty list of VRF outputs (the tree is never loaded); proofs for repeated VRF outputs are refused by the verifier. Proved for every other request."
  },
  {
   "property": "C10",
   "status": "partial",
   "theorems": [
    "Katie.Props.C10_commitment_not_checked",
    "Katie.Props.C10_inclusion_sound_partial",
    "Katie.Props.C10_vrf_output_present",
    "Katie.Props.C10_single_entry_sound",
    "Katie.Props.C10_no_equivocation_partial"
   ],
   "note": "False: in a batch the commitment of an included entry is not compared when another result placed the leaf (C10_commitment_not_checked). Proved when no other result of the batch names the leaf; presence of the VRF output is proved always."
  },
  {
   "property": "C100",
   "status": "proved",
   "theorems": [
    "Katie.Props.C100_separate",
    "Katie.Props.C100_encode_binds",
    "Katie.Props.C100_p256_encode",
    "Katie.Props.C100_ed25519_encode",
    "Katie.Props.C100_p256_challenge",
    "Katie.Props.C100_ed25519_challenge",
    "Katie.Props.C100_p256_output",
    "Katie.Props.C100_ed25519_output"
   ],
   "note": "The RFC is transcribed in the specification (hashString, EncodesTo). For P-256 the encoding of the point at infinity has another length, so for the two commitments U and V only their joint encoding is bound. The edwards25519 output is truncated to 32 bytes, as the package comment says."
  },
  {
   "property": "C101",
   "status": "proved",
   "theorems": [
    "Katie.Props.C101_ed25519",
    "Katie.Props.C101_p256",
    "Katie.Props.C101_p256_succeeds",
    "Katie.Props.C101_failed"
   ],
   "note": "crypto/ecdsa and crypto/ed25519 are arbitrary functions; assumed is that crypto/ecdsa reads the keys that it writes, and that the public key of crypto/ed25519 is the one of RFC 8032 (clamped hash of the seed times the base point)."
  },
  {
   "property": "C102",
   "status": "partial",
   "theorems": [
    "Katie.Props.C102_fresh_partial",
    "Katie.Props.C102_same_partial",
    "Katie.Props.C60_stale_accepted"
   ],
   "note": "End to end like C97, and without any assumption about the versions that the logs contain (C60 and C79 are about honest logs or one log). Missing: the proviso Consistent in FindsBy, as in C97, which the code does not check; without it a client accepts a stale version as the greatest (C60_stale_accepted)."
  },
  {
   "property": "C103",
   "status": "partial",
   "theorems": [
    "Katie.Props.C103_owner_learns_partial",
    "Katie.Props.C103_init_learns_partial",
    "Katie.Props.C70_hidden_accepted",
    "Katie.Props.C72_stale_accepted"
   ],
   "note": "End to end like C97 and C102, without assumptions about the versions that the logs contain; for owners whose monitoring moves to a new entry (OwnerMonitor), and for new owners (OwnerInit). Missing: the proviso Consistent in FindsBy, Watches and Starts, which the code does not check; without it an owner accepts an answer that hides a version (C70_hidden_accepted, C72_stale_accepted)."
  },
  {
   "property": "C104",
   "status": "partial",
   "theorems": [
    "Katie.Props.C104_owners_value_partial",
    "Katie.Props.C104_init_value_partial",
    "Katie.Props.C60_false_value_accepted"
   ],
   "note": "End to end like C97 and C103, for an owner whose monitoring moves to a new entry and for a new owner, and without assumptions about the versions that the logs contain. Missing: the proviso Consistent in FindsBy, Watches and Starts, which the code does not check; without it a client accepts a false value (C60_false_value_accepted)."
  },
  {
   "property": "C105",
   "status": "partial",
   "theorems": [
    "Katie.Props.C105_owners_agree_partial",
    "Katie.Props.C105_owners_value_partial",
    "Katie.Props.C70_hidden_accepted"
   ],
   "note": "End to end like C103, for any two of: an owner whose monitoring has moved to a new entry, a new owner. Missing: the proviso Consistent in Watches and Starts, which the code does not check; without it a version can be hidden (C70_hidden_accepted)."
  },
  {
   "property": "C106",
   "status": "partial",
   "theorems": [
    "Katie.Props.C106_not_behind_partial",
    "Katie.Props.C106_same_value_partial",
    "Katie.Props.C60_stale_accepted"
   ],
   "note": "End to end like C103 and C105, without assumptions about the versions that the logs contain. Missing: the proviso Consistent in FindsBy, Watches and Starts, which the code does not check; without it a client accepts an old version as the greatest one (C60_stale_accepted)."
  },
  {
   "property": "C11",
   "status": "partial",
   "theorems": [
    "Katie.Props.C11_names_itself",
    "Katie.Props.C11_non_inclusion_sound_partial"
   ],
   "note": "False: a non-inclusion result may name the searched VRF output itself. Proved otherwise."
  },
  {
   "property": "C12",
   "status": "partial",
   "theorems": [
    "Katie.Props.C12_removal_wrong_after",
    "Katie.Props.C12_replace_rejected",
    "Katie.Props.C12_self_named_addition_panics",
    "Katie.Props.C12_before_after_partial",
    "Katie.Props.C12_sound_partial",
    "Katie.Props.C12_exact",
    "Katie.Props.C12_honest_exact"
   ],
   "note": "False with removals next to a single unsearched leaf, and for remove and re-add. Proved for all mutations that list entries in both halves of every subtree that they leave with at most one of several entries (always so without removals); both for honest and for adversarial proofs. For all other mutations the root afterwards is wrong, up to explicit hash collisions (C12_exact, C12_honest_exact), so the condition can not be weakened."
  },
  {
   "property": "C13",
   "status": "partial",
   "theorems": [
    "Katie.Props.C13_noop_unreadable",
    "Katie.Props.C13_noop_root_is_empty",
    "Katie.Props.C13_empty_first_version_partial"
   ],
   "note": "False: the root hash of such a version is always the empty string and the version cannot be read. Only the first version may be empty."
  },
  {
   "property": "C14",
   "status": "proved",
   "theorems": [
    "Katie.Props.C14_reload",
    "Katie.Props.C14_tiles"
   ],
   "note": "The 2 kB target size of a tile is not part of the claim."
  },
  {
   "property": "C15",
   "status": "proved",
   "theorems": [
    "Katie.Props.C15_past_versions_immutable"
   ],
   "note": ""
  },
  {
   "property": "C16",
   "status": "proved",
   "theorems": [
    "Katie.Props.C16_every_position_once",
    "Katie.Props.C16_root_children_parent",
    "Katie.Props.C16_isLeaf",
    "Katie.Props.C16_direct_paths",
    "Katie.Props.C16_frontier"
   ],
   "note": "Positions are Nat below 2^64."
  },
  {
   "property": "C17",
   "status": "partial",
   "theorems": [
    "Katie.Props.C17_zero_size_crashes",
    "Katie.Props.C17_zero_size_search",
    "Katie.Props.C17_large_version_loops",
    "Katie.Props.C17_manager_update_crashes",
    "Katie.Props.C17_search_ends_partial",
    "Katie.Props.C17_monitor_ends_partial",
    "Katie.Props.C17_update_ends_partial",
    "Katie.Props.C17_empty_log_refuses"
   ],
   "note": "False: on every reachable nonempty server a previous size of zero panics, a search for a version of 2^31-1 or more never terminates, and an update by a manager panics without the operator's key. Proved: every other request of each kind ends with a response or an error, on every reachable server, for labels with fewer than 2^31 versions."
  },
  {
   "property": "C18",
   "status": "partial",
   "theorems": [
    "Katie.Props.C18_update_view_covers_false",
    "Katie.Props.C18_update_view_covers_partial",
    "Katie.Props.C18_first_view"
   ],
   "note": "The claim is false (m=4, n=7). Proved: exactly for which pairs it holds."
  },
  {
   "property": "C19",
   "status": "partial",
   "theorems": [
    "Katie.Props.C19_ladder_terminates_partial",
    "Katie.Props.C19_ladder_diverges",
    "Katie.Props.C19_all_versions_false",
    "Katie.Props.C19_monitoring_ladder"
   ],
   "note": "False for versions >= 2^31-1: the loop never ends. Proved for all smaller versions."
  },
  {
   "property": "C20",
   "status": "proved",
   "theorems": [
    "Katie.Props.C20_interpretation",
    "Katie.Props.C20_equal_needs_bounds",
    "Katie.Props.C22_session_agrees",
    "Katie.Props.C21_omission_safe"
   ],
   "note": "For targets below 2^31-1 (above, the ladder is never computed, see C19)."
  },
  {
   "property": "C21",
   "status": "proved",
   "theorems": [
    "Katie.Props.C21_omission_safe",
    "Katie.Props.C22_session_agrees"
   ],
   "note": "For targets below 2^31-1."
  },
  {
   "property": "C22",
   "status": "proved",
   "theorems": [
    "Katie.Props.C22_session_agrees",
    "Katie.Props.C22_prefix"
   ],
   "note": "For targets below 2^31-1."
  },
  {
   "property": "C23",
   "status": "proved",
   "theorems": [
    "Katie.Props.C23_rightmost_distinguished",
    "Katie.Props.C23_rightmost_distinguished_window"
   ],
   "note": "About the algorithm run against any provider that answers timestamp requests from a fixed assignment."
  },
  {
   "property": "C24",
   "status": "proved",
   "theorems": [
    "Katie.Props.C24_previous_rightmost"
   ],
   "note": ""
  },
  {
   "property": "C25",
   "status": "proved",
   "theorems": [
    "Katie.Props.C25_distinguished_stable",
    "Katie.Props.C25_rightmost_monotone"
   ],
   "note": ""
  },
  {
   "property": "C26",
   "status": "proved",
   "theorems": [
    "Katie.Props.C26_greatest_version_found",
    "Katie.Props.C26_other_version_rejected",
    "Katie.Props.C26_accepted_is_greatest"
   ],
   "note": "The algorithm, run against a provider that answers from an honest log."
  },
  {
   "property": "C27",
   "status": "partial",
   "theorems": [
    "Katie.Props.C27_expiry_false",
    "Katie.Props.C27_fixed_version_partial",
    "Katie.Props.C27_without_expiry"
   ],
   "note": "False in the expiry clause: the test at the end of the search is y < terminal instead of y <= terminal, so a terminal entry that is itself the leftmost unexpired distinguished entry is reported as expired. Everything else is proved."
  },
  {
   "property": "C28",
   "status": "proved",
   "theorems": [
    "Katie.Props.C28_non_decreasing",
    "Katie.Props.C28_reread",
    "Katie.Props.C28_run_sees_monotone_log",
    "Katie.Props.C28_out_of_order_refused"
   ],
   "note": "for an arbitrary other side and every sequence of operations on a data provider"
  },
  {
   "property": "C29",
   "status": "partial",
   "theorems": [
    "Katie.Props.C29_every_ancestor_inspected",
    "Katie.Props.C29_distinguished_inspected",
    "Katie.Props.C29_moved_to_top_partial",
    "Katie.Props.C29_positions_come_from_before",
    "Katie.Props.C29_finished",
    "Katie.Props.C29_rest_unchanged",
    "Katie.Props.C29_failures",
    "Katie.Props.C29_honest_log_accepted",
    "Katie.Props.C29_failed_run_unchanged",
    "Katie.Props.C29_never_lowers_false"
   ],
   "note": "The clause 'never lowers the version monitored at a position' is false: a position at the top of its right direct path is overwritten by a lower version arriving from the left (C29_never_lowers_false). Everything else is proved, for every provider. That a failed run leaves the state unchanged is proved on a model with explicit memory (Model/MonitorHeap.lean), which refines the one of the other theorems (C83)."
  },
  {
   "property": "C30",
   "status": "proved",
   "theorems": [
    "Katie.Props.C30_greatest_version_at",
    "Katie.Props.C30_set_starting",
    "Katie.Props.C30_monitor_sound",
    "Katie.Props.C30_monitor_complete",
    "Katie.Props.C30_monitor_failures",
    "Katie.Props.C30_honest_log_accepted",
    "Katie.Props.C30_init_sound",
    "Katie.Props.C30_failed_run_unchanged",
    "Katie.Props.C30_crash_keeps_clone"
   ],
   "note": "Proved for every provider whose proof stays exhausted once it is. That a failed run keeps the old state is proved on a model with explicit memory (Model/MonitorHeap.lean), in which the code works on a clone; it is about errors, since a panic of the provider would leave the monitor with the clone (C30_crash_keeps_clone), and the algorithm itself does not panic (C30_monitor_failures)."
  },
  {
   "property": "C31",
   "status": "partial",
   "theorems": [
    "Katie.Props.C31_rejected_unchanged",
    "Katie.Props.C31_accepted",
    "Katie.Props.C31_signed_heads",
    "Katie.Props.C31_root_partial",
    "Katie.Props.C31_history_partial",
    "Katie.Props.C31_wrong_root",
    "Katie.Props.C31_root_exact",
    "Katie.Props.C31_accepts_iff"
   ],
   "note": "Everything except the clause about the new root is proved for all executions. That clause is false for removals that leave a single unlisted entry alone in its subtree (C31_wrong_root); proved otherwise, up to explicit hash collisions; C31_root_exact: the root is right exactly for the updates that are Resolved. C31_accepts_iff: exactly which updates are accepted, in terms of the updates alone."
  },
  {
   "property": "C32",
   "status": "partial",
   "theorems": [
    "Katie.Props.C32_recent_removal_accepted",
    "Katie.Props.C32_last_update_partial",
    "Katie.Props.C31_accepts_iff"
   ],
   "note": "False: the auditor forgets the entries added by all but the last update. Proved for entries added by the last update. C31_accepts_iff: exactly which removals are accepted."
  },
  {
   "property": "C33",
   "status": "partial",
   "theorems": [
    "Katie.Props.C33_any_first_root",
    "Katie.Props.C33_no_removal_partial"
   ],
   "note": "False: the root before the first update is not checked, any root is accepted. Proved: the first update removes nothing."
  },
  {
   "property": "C34",
   "status": "partial",
   "theorems": [
    "Katie.Props.C34_accepted_partial",
    "Katie.Props.C34_additions",
    "Katie.Props.C34_removal_rejected",
    "Katie.Props.C34_replace_rejected",
    "Katie.Props.C34_exact",
    "Katie.Props.C34_noticed"
   ],
   "note": "Proved for all executions without removals. With removals proved unless a call removes a label and adds it again, or a removal leaves an unlisted entry alone in its subtree; the claim is false in both cases, with executions that show it. C34_exact: in every execution the auditor accepts everything and has the right root exactly if neither happens (up to collisions). C34_noticed: otherwise it rejects that update or the next one."
  },
  {
   "property": "C35",
   "status": "proved",
   "theorems": [
    "Katie.Props.C35_state_roundtrip",
    "Katie.Props.C35_state_roundtrip_partial",
    "Katie.Props.C35_writable",
    "Katie.Props.C35_restart",
    "Katie.Props.C35_zero_size_panics"
   ],
   "note": "Proved for every signed state of every execution with updates and signatures that can be sent (C35_state_roundtrip). A state after an update with 65536 or more added entries, which no server can send, cannot be written (C35_writable); if it can, it is read back (C35_state_roundtrip_partial)."
  },
  {
   "property": "C36",
   "status": "partial",
   "theorems": [
    "Katie.Props.C36_consecutive",
    "Katie.Props.C36_versions",
    "Katie.Props.C36_positions",
    "Katie.Props.C36_prefix_tree",
    "Katie.Props.C36_in_tree_iff_position",
    "Katie.Props.C36_removed_label_differs",
    "Katie.Props.C36_after_failure_false"
   ],
   "note": "Proved for all executions in which a call of Mutate that fails is followed by a restart (VRF outputs that coincide are an explicit alternative). False without the restart: the next successful call commits the pending writes of the failed one (C36_after_failure_false). Histories with a change that changes nothing are excluded, see C13."
  },
  {
   "property": "C37",
   "status": "proved",
   "theorems": [
    "Katie.Props.C37_index_round_trip",
    "Katie.Props.C37_decreasing_refused",
    "Katie.Props.C37_empty_refused",
    "Katie.Props.C37_missing_is_empty"
   ],
   "note": "The empty index is refused by the writer (its buffer is nil); the caller never writes it, and a label without versions has no record."
  },
  {
   "property": "C38",
   "status": "partial",
   "theorems": [
    "Katie.Props.C38_crash_states_partial",
    "Katie.Props.C38_atomic_without_head_partial",
    "Katie.Props.C38_crash_mixes_states"
   ],
   "note": "False: C38_crash_mixes_states exhibits a crash between the batch and the separate tree head write. Proved: the possible states after a crash are exactly three, and commits that do not touch the tree head are atomic."
  },
  {
   "property": "C39",
   "status": "proved",
   "theorems": [
    "Katie.Props.C39_keys_distinct"
   ],
   "note": "for all record kinds, with the key strings built as in leveldb.go"
  },
  {
   "property": "C40",
   "status": "proved",
   "theorems": [
    "Katie.Props.C40_read_your_writes",
    "Katie.Props.C40_readonly",
    "Katie.Props.C40_nil_tree_head"
   ],
   "note": "refinement of the transaction layer to two maps (what everybody sees, what the writer sees), for every sequence of operations; C40_nil_tree_head records the one value that is not written through"
  },
  {
   "property": "C41",
   "status": "partial",
   "theorems": [
    "Katie.Props.C41_signed_partial",
    "Katie.Props.C41_increasing",
    "Katie.Props.C41_consecutive_iff",
    "Katie.Props.C41_gap"
   ],
   "note": "False as stated: the version after the first batch of a label is skipped (C41_gap: versions 0, 1, 3). Proved: every answered update has one valid signature per value over the version it carries, versions of a label strictly increase over any history, and they are consecutive exactly when the batches avoid the gap."
  },
  {
   "property": "C42",
   "status": "partial",
   "theorems": [
    "Katie.Props.C42_new_client_stuck",
    "Katie.Props.C42_first_response_panics",
    "Katie.Props.C42_verified_panics"
   ],
   "note": "False: a client without state accepts nothing, ever, whatever the responses (C42_new_client_stuck); the honest first response panics (C42_first_response_panics), as does every response that passes all checks (C42_verified_panics); all others are refused with an error (C87_first_partial)."
  },
  {
   "property": "C43",
   "status": "partial",
   "theorems": [
    "Katie.Props.C43_tree_head_never_moves",
    "Katie.Props.C43_no_tree_head_accepted",
    "Katie.Props.C43_longer_log_rejected"
   ],
   "note": "False: no accepted response changes the tree head, and no search response with a tree head is accepted, for all clients, states and responses."
  },
  {
   "property": "C44",
   "status": "proved",
   "theorems": [
    "Katie.Props.C44_decoded",
    "Katie.Props.C44_missing_auditor_head",
    "Katie.Props.C44_auditor_goes_back",
    "Katie.Props.C43_no_tree_head_accepted"
   ],
   "note": "Proved for every response whose tree head has been decoded, for searches, owner initializations, monitoring and updates alike. That the auditor's head is there is due to the decoder; verifyTreeHead alone would not notice (C44_missing_auditor_head). The auditor's head is compared with the log's, not with the one the client has retained: it may go back (C44_auditor_goes_back). By C42/C43 no new head is accepted in the end."
  },
  {
   "property": "C45",
   "status": "partial",
   "theorems": [
    "Katie.Props.C45_same_head_rejected",
    "Katie.Props.C45_odd_size_rejected",
    "Katie.Props.C45_same_head_rejected_witness",
    "Katie.Props.C45_accepted_iff_partial"
   ],
   "note": "False: the server leaves out the previous size, the client does not. The proof is accepted if and only if every maximal complete subtree of the log has a newly inspected leaf (C45_accepted_iff_partial); it is rejected for every log of odd size."
  },
  {
   "property": "C46",
   "status": "partial",
   "theorems": [
    "Katie.Props.C46_client_state",
    "Katie.Props.C46_label_state_partial",
    "Katie.Props.C46_owner_false",
    "Katie.Props.C46_truncation",
    "Katie.Props.C46_truncation_unnoticed"
   ],
   "note": "False for the state of a label the user owns: what is written is never readable again. Proved for the state about the log and for labels the user does not own. Of a truncated label state exactly the truncations that reach into the monitoring map are noticed; the others silently lose all retained versions (C46_truncation)."
  },
  {
   "property": "C47",
   "status": "partial",
   "theorems": [
    "Katie.Props.C47_search_request",
    "Katie.Props.C47_search_response",
    "Katie.Props.C47_contact_monitor_request",
    "Katie.Props.C47_monitor_response",
    "Katie.Props.C47_owner_init_request",
    "Katie.Props.C47_owner_init_response",
    "Katie.Props.C47_owner_monitor_request",
    "Katie.Props.C47_update_request",
    "Katie.Props.C47_manager_update_request",
    "Katie.Props.C47_update_response",
    "Katie.Props.C47_auditor_update",
    "Katie.Props.C47_tree_head",
    "Katie.Props.C47_auditor_tree_head",
    "Katie.Props.C47_log_entry",
    "Katie.Props.C47_opening_and_value",
    "Katie.Props.C47_too_long_refused",
    "Katie.Props.C47_long_list_refused",
    "Katie.Props.C47_long_label_refused",
    "Katie.Props.C47_truncation_refused",
    "Katie.Props.C47_missing_auditor_head_false",
    "Katie.Props.C47_missing_signature_false"
   ],
   "note": "Proved (both directions, so every message has one encoding) for all structures that have the fields their mode prescribes. False for two structures the server does send: a tree head without auditor head in auditing mode, and the empty value of a missing label in third-party management mode."
  },
  {
   "property": "C48",
   "status": "proved",
   "theorems": [
    "Katie.Props.C48_config",
    "Katie.Props.C48_tree_head",
    "Katie.Props.C48_auditor_tree_head",
    "Katie.Props.C48_update",
    "Katie.Props.C48_commitment",
    "Katie.Props.C48_vrf_input",
    "Katie.Props.C48_log_entry",
    "Katie.Props.C48_head_kinds",
    "Katie.Props.C48_no_domain_separation"
   ],
   "note": "C48_no_domain_separation records that a tree head and an update can have the same bytes, which matters only if one key signs both."
  },
  {
   "property": "C49",
   "status": "partial",
   "theorems": [
    "Katie.Props.C49_depth_256_false",
    "Katie.Props.C49_many_results_false",
    "Katie.Props.C49_search_round_trips_partial"
   ],
   "note": "false for search results at depth 256 and for more than 255 results; proved for proofs whose depths fit in a byte"
  },
  {
   "property": "C50",
   "status": "proved",
   "theorems": [
    "Katie.Props.C50_p256_complete",
    "Katie.Props.C50_ed25519_complete"
   ],
   "note": "over an arbitrary group with the laws in Verif/Spec/VRF.lean (instances given). For P-256 the one proof whose last scalar is zero is made by the prover and refused by the verifier; the theorem says so."
  },
  {
   "property": "C51",
   "status": "proved",
   "theorems": [
    "Katie.Props.special_soundness",
    "Katie.Props.C51_p256_output_determined",
    "Katie.Props.C51_ed25519_output_determined"
   ],
   "note": "over an arbitrary group with the laws in Verif/Spec/VRF.lean; edwards25519 up to the cofactor, which the output hash clears"
  },
  {
   "property": "C52",
   "status": "proved",
   "theorems": [
    "Katie.Props.C52_opens",
    "Katie.Props.C52_binding",
    "Katie.Props.C52_binds_label_version_value",
    "Katie.Props.C52_length_matters"
   ],
   "note": "HMAC is modelled, the hash is arbitrary; binding is for openings of equal (fixed) length, C52_length_matters shows why"
  },
  {
   "property": "C53",
   "status": "proved",
   "theorems": [
    "Katie.Props.C53_new_client"
   ],
   "note": "Exactly the configurations with a known mode, the keys of that mode and a usable lifetime are accepted, all others give an error."
  },
  {
   "property": "C54",
   "status": "partial",
   "theorems": [
    "Katie.Props.C54_no_response",
    "Katie.Props.C54_no_manager_response",
    "Katie.Props.C54_new_version_missing",
    "Katie.Props.C54_one_version_only",
    "Katie.Props.C54_collected_partial",
    "Katie.Props.C54_reload_partial"
   ],
   "note": "False: the updater never produces a response (both kinds of update), the ladder of a response would not contain the new version, and a batch of more than one version is not verifiable. What the updater collects for a response is right: the openings, signatures and values of exactly the versions of the label in the entry, starting at the first one that the user does not know (C54_collected_partial), and after new versions were sequenced it continues with the tree and the index that contain them, or fails with an error (C54_reload_partial)."
  },
  {
   "property": "C55",
   "status": "proved",
   "theorems": [
    "Katie.Props.C55_ladder_length"
   ],
   "note": ""
  },
  {
   "property": "C56",
   "status": "partial",
   "theorems": [
    "Katie.Props.C56_update_sound",
    "Katie.Props.C56_update_failures",
    "Katie.Props.C56_update_diverges"
   ],
   "note": "Soundness is proved for every provider. The clause 'never crashes' is false from version 2^31-1 on, where Update does not return (C56_update_diverges); below it is proved."
  },
  {
   "property": "C57",
   "status": "partial",
   "theorems": [
    "Katie.Props.C57_equivocation",
    "Katie.Props.C57_one_log_partial",
    "Katie.Props.C57_no_equivocation_partial",
    "Katie.Props.C57_one_log_durable",
    "Katie.Props.C57_no_equivocation_durable",
    "Katie.Props.C57_recovering"
   ],
   "note": "False when a database write fails: the second Commit returns an unwritten head. Proved for all executions in which writes do not fail, and for all executions with failing writes in which the auditor is restarted only when the database covers all heads returned; in particular (C57_recovering) if it is restarted whenever Commit has failed."
  },
  {
   "property": "C58",
   "status": "proved",
   "theorems": [
    "Katie.Props.C58_head_covers_log",
    "Katie.Props.C58_restart"
   ],
   "note": "For executions in which a failed Mutate is followed by a restart and no change after the first is empty (C13)."
  },
  {
   "property": "C59",
   "status": "partial",
   "theorems": [
    "Katie.Props.C59_unreadable",
    "Katie.Props.C59_accepted_then_stuck",
    "Katie.Props.C59_auditing_never",
    "Katie.Props.C59_readable_partial",
    "Katie.Props.C59_never_lost_partial"
   ],
   "note": "False in auditing mode, after every accepted response: the stored state has no auditor's tree head, and reading it never gives the state that was written. Proved for all operations in the other two modes, for every response that was decoded from bytes."
  },
  {
   "property": "C60",
   "status": "partial",
   "theorems": [
    "Katie.Props.C60_search_partial",
    "Katie.Props.C60_greatest_partial",
    "Katie.Props.C60_fixed_partial",
    "Katie.Props.C60_stale_accepted",
    "Katie.Props.C60_false_value_accepted"
   ],
   "note": "Proved for all responses, with the proviso that the prefix proofs are consistent where the verifier does not look (C10, C11): absence not shown by naming the searched leaf, no present leaf named with another commitment. Without the proviso it is false: a stale version is accepted as the greatest (C60_stale_accepted)."
  },
  {
   "property": "C61",
   "status": "proved",
   "theorems": [
    "Katie.Props.C05_proof_unique",
    "Katie.Props.C10_elements_unique"
   ],
   "note": "The second theorem is for proofs with the lengths that the wire format enforces."
  },
  {
   "property": "C62",
   "status": "partial",
   "theorems": [
    "Katie.Props.C62_greatest_version_partial",
    "Katie.Props.C62_fixed_version_partial",
    "Katie.Props.C62_never_accepted",
    "Katie.Props.C62_outcome",
    "Katie.Props.C62_view_gap"
   ],
   "note": "Proved for all histories: the server answers with the right version, and every check of the client before the one of the tree head succeeds with the right result (for a fixed version: if the previous size is not on the frontier of the new tree). False as stated: no answer is ever accepted in the end (C62_never_accepted, see C42, C43), and for some previous sizes a timestamp that the client needs is neither sent nor retained (C62_view_gap)."
  },
  {
   "property": "C63",
   "status": "partial",
   "theorems": [
    "Katie.Props.C63_fixed_version_partial",
    "Katie.Props.C63_greatest_version",
    "Katie.Props.C63_third_party"
   ],
   "note": "Proved for fixed versions outside of third-party management. False for the greatest version, where the client always complains about the number of ladder steps, and in third-party management, where it complains about the signature of the empty value."
  },
  {
   "property": "C64",
   "status": "partial",
   "theorems": [
    "Katie.Props.C64_fixed_partial",
    "Katie.Props.C64_unauthenticated"
   ],
   "note": "False: the error is returned before the tree head and the proof are checked, so it needs no signature at all (C64_unauthenticated). Proved: if the skipped checks would succeed, the error is right, or two of the strings hashed collide."
  },
  {
   "property": "C65",
   "status": "partial",
   "theorems": [
    "Katie.Props.C65_new_version_partial",
    "Katie.Props.C65_server_accepts_iff",
    "Katie.Props.C65_stays_acceptable",
    "Katie.Props.C65_monitoring_keeps",
    "Katie.Props.C65_same_version_refused",
    "Katie.Props.C65_older_version_refused",
    "Katie.Props.C65_order_matters"
   ],
   "note": "False: a second search that finds the same version, a search for an older version, and an unlucky order of iteration over the map each lead to a map that the server refuses. Proved: exactly which maps are accepted, that acceptance survives growth of the log and contact monitoring, and that finding a later version on the right edge, or in ascending order, gives an accepted map."
  },
  {
   "property": "C66",
   "status": "proved",
   "theorems": [
    "Katie.Props.C66_nothing_dropped",
    "Katie.Props.C66_nothing_invented"
   ],
   "note": "For every order of iteration; also proves that the loop ends without error."
  },
  {
   "property": "C67",
   "status": "partial",
   "theorems": [
    "Katie.Props.C67_contact_partial",
    "Katie.Props.C67_owner_partial",
    "Katie.Props.C67_never_accepted",
    "Katie.Props.C67_outcome",
    "Katie.Props.C67_finished_panics",
    "Katie.Props.C67_owner_never_succeeds",
    "Katie.Props.C67_panics_witness"
   ],
   "note": "Proved for all histories: the server answers, every check of the client before the one of the tree head succeeds, and the new monitoring map and owner state are right (if the previous size is not on the frontier of the new tree). False as stated: no answer about a new tree head is accepted (C67_never_accepted, see C42, C43); and whatever the answer, a client with nothing left to monitor panics, which includes every owner without monitored versions (C67_finished_panics, C67_owner_never_succeeds)."
  },
  {
   "property": "C68",
   "status": "proved",
   "theorems": [
    "Katie.Props.C68_endorsed_iff",
    "Katie.Props.C68_authentic",
    "Katie.Props.C68_search",
    "Katie.Props.C68_update",
    "Katie.Props.C68_search_authentic",
    "Katie.Props.C68_update_authentic"
   ],
   "note": "Unforgeability of the operator's signature is the hypothesis OnlySigned; that the signed bytes determine label, version and value is proved (C48)."
  },
  {
   "property": "C69",
   "status": "proved",
   "theorems": [
    "Katie.Props.C69_contact",
    "Katie.Props.C69_checked"
   ],
   "note": "For every response and every log, up to a collision among the strings that were hashed; C69_contact says in addition that the new client and label state satisfy the hypotheses again, so that the statement applies to the next round."
  },
  {
   "property": "C70",
   "status": "partial",
   "theorems": [
    "Katie.Props.C70_owner_partial",
    "Katie.Props.C70_checked_partial",
    "Katie.Props.C70_hidden_accepted"
   ],
   "note": "Proved with the proviso that the prefix proofs are consistent where the verifier does not look (C10, C11). Without the proviso it is false: a server can hide a version it inserted from the owner in a distinguished entry, by naming the version's own leaf in the proof of its absence (C70_hidden_accepted)."
  },
  {
   "property": "C71",
   "status": "partial",
   "theorems": [
    "Katie.Props.C71_search_partial",
    "Katie.Props.C71_search_refused",
    "Katie.Props.C71_init_refused",
    "Katie.Props.C71_monitored_zero",
    "Katie.Props.C71_search_stores_zero",
    "Katie.Props.C71_repeat_refused"
   ],
   "note": "False: what is retained for a monitored label contains version 0, every response shows version 0, and a version can not be added twice; so every search that ends right of the rightmost distinguished entry is refused, whatever the response (C71_search_refused), a repeated right response too (C71_repeat_refused). C71_search_partial: other searches are not affected."
  },
  {
   "property": "C72",
   "status": "partial",
   "theorems": [
    "Katie.Props.C72_init_partial",
    "Katie.Props.C72_stale_accepted"
   ],
   "note": "Proved with the proviso that the prefix proofs are consistent where the verifier does not look (C10, C11). Without the proviso it is false: the server can give the owner an older version as the greatest one, by naming the newer version's own leaf in the proof of its absence (C72_stale_accepted)."
  },
  {
   "property": "C73",
   "status": "partial",
   "theorems": [
    "Katie.Props.C73_not_monitored",
    "Katie.Props.C73_only_distinguished"
   ],
   "note": "False: the first new version is never in the binary ladder of an update response, so its commitment is not taken from the value but from what the client retained, which in general has none. Then the client refuses every answer, whatever it is, unless the new entry is distinguished and the first new version is in the ladder of the last one (C73_only_distinguished); and in that case nothing is monitored and the commitment is still missing afterwards (C73_not_monitored)."
  },
  {
   "property": "C74",
   "status": "partial",
   "theorems": [
    "Katie.Props.C74_update_partial",
    "Katie.Props.C74_wrong_value_accepted"
   ],
   "note": "Proved for all new versions that are not in the ladder of the version before (and at a distinguished entry not in the ladder of the last one either), with the proviso that the prefix proofs are consistent where the verifier does not look (C10, C11). False for the first new version: the server can plant a commitment for it in the answer to the initialization, and the owner then accepts an update though the log commits to another value (C74_wrong_value_accepted)."
  },
  {
   "property": "C75",
   "status": "partial",
   "theorems": [
    "Katie.Props.C75_init_partial",
    "Katie.Props.C75_only_distinguished",
    "Katie.Props.C75_answers_iff",
    "Katie.Props.C75_outcome",
    "Katie.Props.C75_never_accepted"
   ],
   "note": "Proved for all histories: the server answers exactly the requests that start at a distinguished, unexpired entry, every check of the client before the one of the tree head succeeds, and the owner state is right (if the previous size is not on the frontier of the new tree). False as stated: no answer about a new tree head is accepted (C75_never_accepted, see C42, C43)."
  },
  {
   "property": "C76",
   "status": "partial",
   "theorems": [
    "Katie.Props.C76_replaced_refused",
    "Katie.Props.C76_replaced_rejected",
    "Katie.Props.C76_removed_rejected",
    "Katie.Props.C62_fixed_version_partial",
    "Katie.Props.C62_greatest_version_partial"
   ],
   "note": "False: the server computes its ladders from the index, which forgets the versions before the removal, but the prefix trees of the earlier log entries keep them. If the value differs the server fails (C76_replaced_refused), if it is the same or the label is not added again the client rejects the answer (C76_replaced_rejected, C76_removed_rejected). It holds for labels that are never removed (C62)."
  },
  {
   "property": "C77",
   "status": "proved",
   "theorems": [
    "Katie.Props.C77_sign",
    "Katie.Props.C77_verify",
    "Katie.Props.C77_correct",
    "Katie.Props.C77_unique",
    "Katie.Props.C77_ed25519"
   ],
   "note": "ECDSA and Ed25519 themselves are arbitrary functions; that ECDSA's numbers are below 2^256 is a hypothesis."
  },
  {
   "property": "C78",
   "status": "proved",
   "theorems": [
    "Katie.Props.C78_p256",
    "Katie.Props.C78_p256_refused",
    "Katie.Props.C78_ed25519",
    "Katie.Props.C78_ed25519_refused"
   ],
   "note": "over an arbitrary group with the laws in Verif/Spec/VRF.lean (instances given); for edwards25519 the order of the base point is at least 2^252, which is needed."
  },
  {
   "property": "C79",
   "status": "partial",
   "theorems": [
    "Katie.Props.C79_one_answer_partial",
    "Katie.Props.C79_two_answers"
   ],
   "note": "Proved for every well-formed log and all pairs of responses, with the proviso that the prefix proofs are consistent where the verifier does not look (C10, C11). False without it: two clients with the same state accept versions 0 and 1 as the greatest version for the same tree head (C79_two_answers)."
  },
  {
   "property": "C80",
   "status": "partial",
   "theorems": [
    "Katie.Props.C80_fixed_version_partial",
    "Katie.Props.C80_other_labels",
    "Katie.Props.C80_contact_partial",
    "Katie.Props.C80_ownerInit_partial",
    "Katie.Props.C80_ownerMonitor_partial",
    "Katie.Props.C80_greatest_refused",
    "Katie.Props.C80_greatest_witness",
    "Katie.Props.C80_unpublished_witness",
    "Katie.Props.C80_removed_witness"
   ],
   "note": "Proved for requests about versions that the tree head covers, when the label is not removed meanwhile, and for all searches when the changes concern other labels. False for the search for the greatest version once a newer version is in the index (C80_greatest_refused), for versions that are not in the tree head, and for labels that are removed meanwhile. A key that is read twice by one request is taken to be read at one moment."
  },
  {
   "property": "C81",
   "status": "proved",
   "theorems": [
    "Katie.Props.C81_messages",
    "Katie.Props.C81_submits",
    "Katie.Props.C81_finite",
    "Katie.Props.C81_progress",
    "Katie.Props.C81_cancelled_ends",
    "Katie.Props.C81_complete",
    "Katie.Props.C81_never_crashes"
   ],
   "note": "The goroutine as a state machine; a step is the code between two channel operations. That it does not panic is proved under the conditions of C17; C81_complete and C81_never_crashes take the clock to stand still and the database to change only when the versions are sequenced. The contents of the messages are C54: they are always errors."
  },
  {
   "property": "C82",
   "status": "partial",
   "theorems": [
    "Katie.Props.C82_whole_partial",
    "Katie.Props.C82_requests_partial",
    "Katie.Props.C82_greatest_refused",
    "Katie.Props.C82_versions_lost",
    "Katie.Props.C82_repeated_witness",
    "Katie.Props.C82_not_removable_witness"
   ],
   "note": "Proved for a crash before the first write or after the second, and in between for requests about versions that the tree head covers and labels that were not removed. False for a crash between the two writes of the commit: searches for the greatest version of the labels concerned are refused (C82_greatest_refused), and the versions of the change are lost whatever changes are made afterwards (C82_versions_lost): listed in the index, but never added to the prefix tree."
  },
  {
   "property": "C83",
   "status": "partial",
   "theorems": [
    "Katie.Props.C29_failed_run_unchanged",
    "Katie.Props.C30_failed_run_unchanged",
    "Katie.Props.C83_failed_init",
    "Katie.Props.C83_failed_update",
    "Katie.Props.C83_kept_reads",
    "Katie.Props.C83_contact_monitor",
    "Katie.Props.C83_owner_monitor",
    "Katie.Props.C83_owner_init",
    "Katie.Props.C83_update",
    "Katie.Props.C83_same_runs",
    "Katie.Props.C83_others_after_monitor",
    "Katie.Props.C83_others_after_update_partial",
    "Katie.Props.C83_handed_out",
    "Katie.Props.C83_contacts_after_update",
    "Katie.Props.C83_independent_false"
   ],
   "note": "The monitor with explicit memory: pointers, slices with spare capacity, maps. Proved except for the last clause, which is false: two monitors made from the same state append to the same array, and an update verified through one overwrites the position of an update verified through the other (C83_independent_false). The client of this repository never has two such monitors."
  },
  {
   "property": "C84",
   "status": "partial",
   "theorems": [
    "Katie.Props.C84_search_answer_is_small",
    "Katie.Props.C84_search_answer_encodes",
    "Katie.Props.C84_search_answer_decodes_partial",
    "Katie.Props.C84_owner_init_answer_encodes",
    "Katie.Props.C84_contact_answer_is_small",
    "Katie.Props.C84_owner_answer_is_small",
    "Katie.Props.C84_contact_answer_encodes_partial",
    "Katie.Props.C84_owner_answer_encodes_partial",
    "Katie.Props.C84_contact_answer_decodes_partial",
    "Katie.Props.C84_owner_answer_decodes_partial",
    "Katie.Props.C84_monitor_answer_false"
   ],
   "note": "Proved for searches and owner initialization: the sizes are logarithmic in the size of the log, and every answer can be encoded. For monitoring the sizes also grow with the number of entries of the monitoring map in the request; with few entries every answer can be encoded. Decoding is proved except for the cases in which it fails (C47, C49). False for monitoring in general: a concrete log with 512 entries and a request with 128 entries of the monitoring map whose answer cannot be encoded."
  },
  {
   "property": "C85",
   "status": "proved",
   "theorems": [
    "Katie.Props.C85_made_iff",
    "Katie.Props.C85_extends",
    "Katie.Props.C85_refused"
   ],
   "note": "The acceptance conditions are stated in terms of the history alone (Spec/Acceptable.lean). Assumes that the operator can sign and that VRF outputs are as long as a hash (Able), that the change is well-formed (ChangeOk, InRange) and changes something (C13 says what happens otherwise), and that the database does not fail."
  },
  {
   "property": "C86",
   "status": "proved",
   "theorems": [
    "Katie.Props.C86_search",
    "Katie.Props.C86_contact_monitor",
    "Katie.Props.C86_owner_init",
    "Katie.Props.C86_owner_monitor",
    "Katie.Props.C86_update_refused",
    "Katie.Props.C86_update",
    "Katie.Props.C86_manager_update"
   ],
   "note": "Two executions with the same keys and the same published updates, in which the label has the same versions, give the same answers and the same errors. How well commitments and VRF outputs hide what they were made from is a question about the hash function and the VRF and not treated; neither is the time that an answer takes."
  },
  {
   "property": "C87",
   "status": "partial",
   "theorems": [
    "Katie.Props.C87_search_partial",
    "Katie.Props.C87_init_partial",
    "Katie.Props.C87_contact_partial",
    "Katie.Props.C87_owner_partial",
    "Katie.Props.C87_update_partial",
    "Katie.Props.C87_search_hangs",
    "Katie.Props.C87_init_hangs",
    "Katie.Props.C87_update_panics",
    "Katie.Props.C87_first_partial",
    "Katie.Props.C87_first_hangs",
    "Katie.Props.C87_first_is_search"
   ],
   "note": "False for the code. For every stored state, a response to a search (outside third-party management) or to an initialization that names a version of 2^31 - 1 or more makes the client run forever (C87_search_hangs, C87_init_hangs), and for every label and owner state a response to an update with 255 versions and no ladder makes it panic (C87_update_panics). The bytes of these responses are built and decoded. The partial theorems show, for all bytes, that nothing else happens: searches and initializations about smaller versions end with a result or an error; the monitoring functions can only panic as in C67 (nil owner state or proof), and updates only with the index out of range. A client without a stored tree head can only search (C87_first_is_search); it ends with an error or the panic of C42, never with success, or runs forever (C87_first_partial, C87_first_hangs)."
  },
  {
   "property": "C88",
   "status": "partial",
   "theorems": [
    "Katie.Props.C88_same_partial",
    "Katie.Props.C88_clone_writable",
    "Katie.Props.C88_uncommitted_visible",
    "Katie.Props.C88_stale_head",
    "Katie.Props.C88_auditor_only",
    "Katie.Props.C88_nil_head"
   ],
   "note": "Proved for uses in which only the original store is written to and clones are read from only until the next write (Disciplined in Spec/Memory.lean), with a non-nil tree head stored before an auditor tree head. False otherwise: a clone of the in-memory store can be written to, sees writes that are not committed, and never sees a new tree head, for which updater.reloadTree looks after an update. LevelDB itself is the key-value store of Model/DB.lean."
  },
  {
   "property": "C89",
   "status": "proved",
   "theorems": [
    "Katie.Props.C89_operator_key",
    "Katie.Props.C89_accepts_iff",
    "Katie.Props.C89_operator_accepted"
   ],
   "note": "Signing and verifying with the operator's keys are arbitrary functions that fit together. The versions of a label stay below 2^32. What the sequencing goroutine does with a submission is outside this repository."
  },
  {
   "property": "C90",
   "status": "partial",
   "theorems": [
    "Katie.Props.C90_counts_the_decoders",
    "Katie.Props.C90_requests_partial",
    "Katie.Props.C90_responses_partial",
    "Katie.Props.C90_values_partial",
    "Katie.Props.C90_accepted",
    "Katie.Props.C90_update_request_false",
    "Katie.Props.C90_manager_update_request_false",
    "Katie.Props.C90_update_response_false",
    "Katie.Props.C90_search_response_false"
   ],
   "note": "False for the four messages that contain values: the four-byte length of a value is allocated before the value is read, so 8 bytes make the server reserve 4 GB. Proved for all other messages, for all accepted messages, and with 4 GB added for the rest."
  },
  {
   "property": "C91",
   "status": "proved",
   "theorems": [
    "Katie.Props.C91_same_answers",
    "Katie.Props.C91_mutate",
    "Katie.Props.C91_no_sharing",
    "Katie.Props.C91_case"
   ],
   "note": "batch.go is modelled as it is: pointers, the shared cache, rounds, any order of map iteration (Model/PrefixHeap.lean). The answers are those of Model/Prefix.lean's search, about which C09 speaks. runProofBuilder runs on the tree read from memory: it writes nothing but cached hashes, which are not modelled as writes. What Mutate changes in place is modelled as a change of a value; C91_no_sharing is why that is enough."
  },
  {
   "property": "C92",
   "status": "partial",
   "theorems": [
    "Katie.Props.C92_p256_range",
    "Katie.Props.C92_p256_rfc_partial",
    "Katie.Props.C92_p256_octets",
    "Katie.Props.C92_p256_not_reduced",
    "Katie.Props.C92_p256_no_reuse",
    "Katie.Props.C92_ed25519",
    "Katie.Props.C92_ed25519_no_reuse"
   ],
   "note": "the P-256 nonce is the one of RFC 6979 for every point whose digest is below the group order. For the others (one in 2^32) it is not, because the code does not reduce the digest: C92_p256_not_reduced. Range and no reuse hold without this restriction."
  },
  {
   "property": "C93",
   "status": "partial",
   "theorems": [
    "Katie.Props.C93_contact_again",
    "Katie.Props.C93_init_again",
    "Katie.Props.C93_owner_again",
    "Katie.Props.C93_cutoff_fixed",
    "Katie.Props.C93_search_rests_partial",
    "Katie.Props.C93_never_nil",
    "Katie.Props.C93_starves",
    "Katie.Props.C93_owner_never",
    "Katie.Props.C93_init_breaks",
    "Katie.Props.C93_asks"
   ],
   "note": "False for the code but for searches (C93_search_rests_partial). A label that has been monitored is stored with the cutoff as its terminal entry and is due again at once, so Monitor never returns nil, and a database may return the same label for ever (C93_starves). An owned label cannot be read back: it is never monitored nor updated, and Monitor fails whenever the database returns it. Not shown: that the cutoff moves when the log grows (no answer that comes with a new tree head is accepted, see C67). Third-party auditing mode is excluded, since the state then has to hold an auditor's head that the client never stores (C59)."
  },
  {
   "property": "C94",
   "status": "partial",
   "theorems": [
    "Katie.Props.C94_told",
    "Katie.Props.C94_sequential",
    "Katie.Props.C94_progress",
    "Katie.Props.C94_thrown_away",
    "Katie.Props.C94_lost",
    "Katie.Props.C94_body",
    "Katie.Props.C94_body_large",
    "Katie.Props.C94_body_limit"
   ],
   "note": "Proved for all interleavings except that an inserted value is acknowledged, which is false: the inserter throws the result away if the handler has not reached its second select (C94_lost), and then the client is always told that the result did not come in time (C94_thrown_away). A body of exactly 16384 bytes is accepted only if io.EOF comes with its last bytes (C94_body_limit). Insert is an arbitrary function; the program is excluded from the build and Insert no longer exists."
  },
  {
   "property": "C95",
   "status": "proved",
   "theorems": [
    "Katie.Props.C95_audited",
    "Katie.Props.C95_clients_agree"
   ],
   "note": "End to end from the auditor's executions to the checks of the client. That the signed root is the root of some log W is part of the hypothesis. The client's checks are those of verifyTreeHead with what precedes them, for all kinds of requests; that a response with a new head is then thrown away by the code is C42 and C43, so the theorem is about the checks and not about the whole calls."
  },
  {
   "property": "C96",
   "status": "proved",
   "theorems": [
    "Katie.Props.C96_label",
    "Katie.Props.C96_no_account",
    "Katie.Props.C96_unrouted",
    "Katie.Props.C96_consistency"
   ],
   "note": "What the router (gorilla/mux) matches is part of the specification. Without the router it would not hold: C96_unrouted."
  },
  {
   "property": "C97",
   "status": "partial",
   "theorems": [
    "Katie.Props.C97_one_value_partial",
    "Katie.Props.C60_false_value_accepted"
   ],
   "note": "End to end: executions of the auditor, checks of the clients, contents of the prefix trees, commitments. That the signed root is the root of some log W is part of the hypothesis, as in C95; otherwise no honesty of the server is assumed, and nothing about the unlisted changes of the tree: that the audited proofs keep every entry that is not listed as removed is part of the proof (step_keeps). Missing: the proviso Consistent in Finds, that no result of a batch names a leaf whose VRF output is also looked up with another commitment. It is not checked by the code, and without it the claim is false: C60_false_value_accepted (two clients with the same log accept different values of one version)."
  },
  {
   "property": "C98",
   "status": "proved",
   "theorems": [
    "Katie.Props.C98_listed",
    "Katie.Props.C98_step"
   ],
   "note": "For all updates, whether or not the remaining sibling of a removed entry is known (so also for the changes for which C12 shows that the computed root is the wrong one: then no map has that root unless strings collide). Relative to the contents of an earlier entry, because a fresh auditor accepts any first root (C33). That the signed root is the root of some log W is part of the hypothesis, as in C95."
  },
  {
   "property": "C99",
   "status": "partial",
   "theorems": [
    "Katie.Props.C99_accepted_partial",
    "Katie.Props.C60_false_value_accepted"
   ],
   "note": "Missing: the proviso Consistent in Finds, as in C97; without it false (C60_false_value_accepted)."
  }
 ]
}