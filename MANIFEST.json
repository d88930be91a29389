{
 "claims": [
  {
   "property": "C01",
   "status": "proved",
   "theorems": [
    "Verif.B64.c01_int_roundtrip",
    "Verif.B64.c01_int_width_zero",
    "Verif.B64.c01_text_roundtrip",
    "Verif.B64.c01_text_refused",
    "Verif.B64.c01_alphabet"
   ],
   "note": ""
  },
  {
   "property": "C02",
   "status": "proved",
   "theorems": [
    "Verif.B64.c02_b64_to_b2",
    "Verif.B64.c02_b2_to_b64",
    "Verif.B64.c02_b2_short",
    "Verif.B64.c02_code_roundtrip",
    "Verif.B64.c02_nab_sextets"
   ],
   "note": ""
  },
  {
   "property": "C03",
   "status": "partial",
   "theorems": [
    "Verif.Matter.c03_text_roundtrip",
    "Verif.Matter.c03_make_keeps",
    "Verif.Matter.c03_special_roundtrip_partial",
    "Verif.Matter.c03_special_no_text_form"
   ],
   "note": "Proved outright for Matter(raw, code, soft, rize). For Matter(code, soft) without raw the statement is false of the code when the code needs raw bytes (c03_special_no_text_form); proved for codes without raw part."
  },
  {
   "property": "C04",
   "status": "proved",
   "theorems": [
    "Verif.Matter.c04_binary_roundtrip"
   ],
   "note": ""
  },
  {
   "property": "C05",
   "status": "proved",
   "theorems": [
    "Verif.Matter.c05_aligned",
    "Verif.Matter.c05_composable"
   ],
   "note": ""
  },
  {
   "property": "C06",
   "status": "proved",
   "theorems": [
    "Verif.Matter.c06_self_framing",
    "Verif.Matter.c06_self_framing_binary",
    "Verif.Matter.c06_stream"
   ],
   "note": ""
  },
  {
   "property": "C07",
   "status": "partial",
   "theorems": [
    "Verif.Matter.c07_text_prefix_partial",
    "Verif.Matter.c07_text_not_shortage",
    "Verif.Matter.c07_binary_prefix"
   ],
   "note": "A prefix never parses, text or binary, and binary prefixes always ask for more. In text a cut exactly after the hard code of size-carrying or padded codes raises another error (c07_text_not_shortage)."
  },
  {
   "property": "C08",
   "status": "partial",
   "theorems": [
    "Verif.Matter.c08_canonical_partial",
    "Verif.Matter.c08_unique_partial",
    "Verif.Matter.c08_malleable",
    "Verif.Matter.c08_binary_unique"
   ],
   "note": "False of the text parser: '+' and '/' are accepted for '-' and '_' (c08_malleable). Proved up to that respelling, and outright in the binary domain."
  },
  {
   "property": "C09",
   "status": "proved",
   "theorems": [
    "Verif.Matter.c09_variable_size",
    "Verif.Matter.c09_rize"
   ],
   "note": ""
  },
  {
   "property": "C10",
   "status": "proved",
   "theorems": [
    "Verif.Thold.c10_numeric",
    "Verif.Thold.c10_zero_never"
   ],
   "note": ""
  },
  {
   "property": "C11",
   "status": "proved",
   "theorems": [
    "Verif.Thold.c11_weighted",
    "Verif.Thold.c11_all_sign"
   ],
   "note": ""
  },
  {
   "property": "C12",
   "status": "partial",
   "theorems": [
    "Verif.Thold.c12_monotone_partial",
    "Verif.Thold.c12_numeric_append",
    "Verif.Thold.c12_not_monotone"
   ],
   "note": "False for weighted thresholds when a signature of a key beyond the last weight is added (c12_not_monotone). Proved for positions of the threshold."
  },
  {
   "property": "C13",
   "status": "partial",
   "theorems": [
    "Verif.Thold.c13_set_only_partial",
    "Verif.Thold.c13_numeric_repeats"
   ],
   "note": "False for numeric thresholds, which count list entries (c13_numeric_repeats). Proved for weighted thresholds and for duplicate-free lists."
  },
  {
   "property": "C14",
   "status": "proved",
   "theorems": [
    "Verif.Thold.c14_sith_roundtrip",
    "Verif.Thold.c14_limen_roundtrip",
    "Verif.Thold.c14_numeric_roundtrip",
    "Verif.Thold.c14_same_satisfaction",
    "Verif.Thold.c14_sith_wellFormed",
    "Verif.Thold.c14_no_clauses",
    "Verif.Thold.c14_above_one"
   ],
   "note": "Well-formed means: at least one clause, sums reach one, weights in [0,1]; c14_sith_wellFormed shows everything read from text is. c14_no_clauses and c14_above_one show why the bounds are needed for thold=."
  },
  {
   "property": "C15",
   "status": "proved",
   "theorems": [
    "Verif.Thold.c15_ample",
    "Verif.Thold.c15_ample_fault",
    "Verif.Thold.c15_quorums_intersect",
    "Verif.Thold.c15_ample_choice"
   ],
   "note": ""
  },
  {
   "property": "C16",
   "status": "partial",
   "theorems": [
    "Verif.Kel.c16_chain_nondelegated",
    "Verif.Kel.c16_chain_partial",
    "Verif.Kel.c16_chain_broken"
   ],
   "note": "Proved for histories without drt events, and for all histories as long as no event was first-seen twice. False in general: a drt that is replayed or supersedes another drt leaves the key event log without a digest-linked chain (c16_chain_broken)."
  },
  {
   "property": "C17",
   "status": "proved",
   "theorems": [
    "Verif.Kel.c17_one_step",
    "Verif.Kel.c17_append_only",
    "Verif.Kel.c17_ordinals"
   ],
   "note": ""
  },
  {
   "property": "C18",
   "status": "proved",
   "theorems": [
    "Verif.Kel.c18_once",
    "Verif.Kel.c18_twice_with_drt"
   ],
   "note": "The statement excludes drt events; c18_twice_with_drt shows why."
  },
  {
   "property": "C19",
   "status": "proved",
   "theorems": [
    "Verif.Kel.c19_signing_threshold"
   ],
   "note": ""
  },
  {
   "property": "C20",
   "status": "partial",
   "theorems": [
    "Verif.Kel.c20_current_state",
    "Verif.Kel.c20_prerotation_partial",
    "Verif.Kel.c20_superseding_drt"
   ],
   "note": "At the moment of acceptance the current key state's commitments are exposed (all histories); against the predecessor in the log proved for histories without drt events; false for a drt that supersedes a drt (c20_superseding_drt)."
  },
  {
   "property": "C21",
   "status": "partial",
   "theorems": [
    "Verif.Kel.c21_witness_threshold_partial",
    "Verif.Kel.c21_distinct_witnesses_partial",
    "Verif.Kel.c21_one_witness_counts_twice"
   ],
   "note": "Enough different valid receipts by witnesses in force; from different witnesses only if receipts have different positions, false otherwise (c21_one_witness_counts_twice)."
  },
  {
   "property": "C22",
   "status": "partial",
   "theorems": [
    "Verif.Kel.c22_nodup",
    "Verif.Kel.c22_rotation_partial",
    "Verif.Kel.c22_other",
    "Verif.Kel.c22_recovery_ignores_cuts"
   ],
   "note": "Proved for inceptions, interactions and rotations extending the log. False for recovery rotations, whose cuts and adds are ignored (c22_recovery_ignores_cuts)."
  },
  {
   "property": "C23",
   "status": "proved",
   "theorems": [
    "Verif.Kel.c23_refused",
    "Verif.Kel.c23_changed"
   ],
   "note": ""
  },
  {
   "property": "C24",
   "status": "partial",
   "theorems": [
    "Verif.Kel.c24_update",
    "Verif.Kel.c24_recovery_partial",
    "Verif.Kel.c24_est_permanent_partial",
    "Verif.Kel.c24_rotation_superseded"
   ],
   "note": "Proved for histories without drt events. False with them: a drt event on a non-delegated identifier supersedes a rotation (c24_rotation_superseded)."
  },
  {
   "property": "C25",
   "status": "proved",
   "theorems": [
    "Verif.Kel.c25_frozen"
   ],
   "note": ""
  },
  {
   "property": "C26",
   "status": "proved",
   "theorems": [
    "Verif.Kel.c26_est_only"
   ],
   "note": ""
  },
  {
   "property": "C27",
   "status": "partial",
   "theorems": [
    "Verif.Kel.c27_replay_partial",
    "Verif.Kel.c27_replay_accepted"
   ],
   "note": "Proved for histories without drt events; a drt is accepted a second time (c27_replay_accepted)."
  },
  {
   "property": "C28",
   "status": "partial",
   "theorems": [
    "Verif.Kel.c28_first_seen_wins_partial",
    "Verif.Kel.c28_not_recorded"
   ],
   "note": "First-seen-wins is proved for histories without drt events; the recording half is false, the escrow call raises before recording (c28_not_recorded)."
  },
  {
   "property": "C29",
   "status": "proved",
   "theorems": [
    "Verif.Kel.c29_anchor",
    "Verif.Kel.c29_superseding",
    "Verif.Kel.c29_delegable",
    "Verif.Kel.c29_superseded_anchor"
   ],
   "note": "The anchor is in the delegator's first-seen log; after a recovery of the delegator a superseded event's seal still counts (c29_superseded_anchor)."
  },
  {
   "property": "C30",
   "status": "partial",
   "theorems": [
    "Verif.Kel.c30_remote_partial",
    "Verif.Kel.c30_history_partial",
    "Verif.Kel.c30_laundered"
   ],
   "note": "Proved for the processing of a remote message itself, and over whole histories as long as no other event is accepted at the number of the remote event. False over all histories: a remote event refused as likely duplicitous has its source recorded as local, and a later escrow pass then accepts it as local (c30_laundered)."
  },
  {
   "property": "C31",
   "status": "partial",
   "theorems": [
    "Verif.Kel.c31_order_partial",
    "Verif.Kel.c31_prefix_partial",
    "Verif.Kel.c31_any_history_partial",
    "Verif.Kel.c31_pieces_partial"
   ],
   "note": "Proved for logs of one identifier without delegation and recovery. Safety over any history whatever (any signatures, sources, passes of any escrow, time-outs, receipts, approvals): the logs are always those of a prefix of the log delivered in order. Convergence for any order, repetition and interleaving with passes of any escrow, with signatures and witness signatures spread over messages and receipts, each message carrying at least one verifying signature. Missing: delegated logs, recovery."
  },
  {
   "property": "C32",
   "status": "partial",
   "theorems": [
    "Verif.Kel.c32_stored",
    "Verif.Kel.c32_reprocess_partial",
    "Verif.Kel.c32_first_seen_twice",
    "Verif.Kel.c32_crash_replaced"
   ],
   "note": "Bodies and signatures of logged events are present after a crash at any write. Reprocessing a non-delegated event gives the same key event log, bodies and key state up to the first-seen number. False for the first-seen log: a crash between its write and the key state's leads to a second entry (c32_first_seen_twice), and a different event can take the place of the first seen one (c32_crash_replaced)."
  },
  {
   "property": "C33",
   "status": "partial",
   "theorems": [
    "Verif.Kel.c33_stored_verify_partial",
    "Verif.Kel.c33_unverified_kept"
   ],
   "note": "False in general: signatures stored unverified by an escrow remain after acceptance (c33_unverified_kept). Proved for histories in which unverified signatures are not escrowed for the event."
  },
  {
   "property": "C34",
   "status": "partial",
   "theorems": [
    "Verif.Rct.c34_couples",
    "Verif.Rct.c34_witness_signatures",
    "Verif.Rct.c34_groups_some",
    "Verif.Rct.c34_groups_partial",
    "Verif.Rct.c34_last_partial",
    "Verif.Rct.c34_kept",
    "Verif.Rct.c34_key_events",
    "Verif.Rct.c34_good_stored",
    "Verif.Rct.c34_good_group_stored",
    "Verif.Rct.c34_good_attached_stored",
    "Verif.Rct.DemoRct.c34_misfiled",
    "Verif.Rct.DemoRct.c34_superseded",
    "Verif.Rct.DemoRct.c34_duplicitous",
    "Verif.Rct.DemoRct.c34_unknown_raises",
    "Verif.Rct.DemoRct.c34_index_shifted",
    "Verif.Rct.DemoRct.c34_attached_witness"
   ],
   "note": "Couples: every stored one verifies over exactly its event, in every history. Group signatures: proved when receipt messages name the last event at their number, false otherwise (c34_misfiled: filed under the superseding event). Receipts are also stored for superseded and for never accepted events (c34_superseded, c34_duplicitous); a witness index can refer to the wrong list (c34_index_shifted)."
  },
  {
   "property": "C35",
   "status": "proved",
   "theorems": [
    "Verif.Kel.c35_lookup",
    "Verif.Kel.c35_authority"
   ],
   "note": ""
  },
  {
   "property": "C36",
   "status": "proved",
   "theorems": [
    "Verif.Db.c36_order",
    "Verif.Db.c36_split",
    "Verif.Db.c36_injective",
    "Verif.Db.c36_width",
    "Verif.Db.c36_overflow"
   ],
   "note": "For ordinals up to MaxON, the documented range; beyond it the order breaks (c36_overflow)."
  },
  {
   "property": "C37",
   "status": "partial",
   "theorems": [
    "Verif.Db.c37_refines_partial",
    "Verif.Db.c37_spec_local",
    "Verif.Db.c37_numbered",
    "Verif.Db.c37_nested_keys"
   ],
   "note": "Refinement to abstract ordered sets for every sequence of operations on keys none of which is another one followed by the separator and 32 hex digits; false without that (c37_nested_keys)."
  },
  {
   "property": "C38",
   "status": "partial",
   "theorems": [
    "Verif.Db.c38_append_partial",
    "Verif.Db.c38_read",
    "Verif.Db.c38_write",
    "Verif.Db.c38_remove_all",
    "Verif.Db.c38_history_partial",
    "Verif.Db.c38_nested_keys",
    "Verif.Db.c38_empty_item",
    "Verif.Db.c38_item",
    "Verif.Db.c38_append_set_partial",
    "Verif.Db.c38_append_repeats"
   ],
   "note": "Proved for databases in which no other key is the appended one followed by the separator and 32 hex digits; false otherwise (c38_nested_keys)."
  },
  {
   "property": "C39",
   "status": "partial",
   "theorems": [
    "Verif.Db.c39_refines_partial",
    "Verif.Db.c39_repeated",
    "Verif.Db.c39_dot_key",
    "Verif.Db.c39_numbered_put"
   ],
   "note": "Refinement to abstract ordered sets when no single put names a value twice and keys do not begin with a dot. False otherwise (c39_repeated, c39_dot_key), and for puts at numbered keys (c39_numbered_put)."
  },
  {
   "property": "C40",
   "status": "proved",
   "theorems": [
    "Verif.Db.c40_iter",
    "Verif.Db.c40_remove",
    "Verif.Db.c40_kept"
   ],
   "note": ""
  },
  {
   "property": "C41",
   "status": "partial",
   "theorems": [
    "Verif.Db.c41_back_partial",
    "Verif.Db.c41_last_back_partial",
    "Verif.Db.c41_missing_raises",
    "Verif.Db.c41_dup_back_partial",
    "Verif.Db.c41_dup_starts_above",
    "Verif.Db.c41_last_forward",
    "Verif.Db.c41_last_forward_sep"
   ],
   "note": "Proved when the key and number are in use. False for missing ones: the iteration raises (c41_missing_raises); with duplicates it can start above the number asked for (c41_dup_starts_above). The forward iteration over last duplicates is exact with the default separator and endless with another (c41_last_forward_sep)."
  },
  {
   "property": "C42",
   "status": "proved",
   "theorems": [
    "Verif.Rpy.c42_authority",
    "Verif.Rpy.c42_history",
    "Verif.Rpy.c42_records",
    "Verif.Rpy.c42_notice",
    "Verif.Rpy.c42_refused",
    "Verif.Rpy.c42_parts_add_up",
    "Verif.Rpy.c42_shared_notice",
    "Verif.Rpy.c43_later_accepted",
    "Verif.Rpy.c43_later_group_accepted"
   ],
   "note": "Authority is proved for every reply, state and history. What is recorded is the last accepted reply's content for endpoint roles, locations and watched identifiers; key states are kept by event digest, so a notice of one source replaces another's (c42_shared_notice). Replies of registries and oobis are not modelled; one key can count twice towards a numeric threshold (see C49)."
  },
  {
   "property": "C43",
   "status": "partial",
   "theorems": [
    "Verif.Rpy.c43_couples_partial",
    "Verif.Rpy.c43_groups_partial",
    "Verif.Rpy.c43_groups_ordered",
    "Verif.Rpy.c43_later_accepted",
    "Verif.Rpy.c43_later_group_accepted",
    "Verif.Rpy.c43_old_keys_lower_bar",
    "Verif.Rpy.c43_clean_up_raises",
    "Verif.Rpy.c43_escrow_erases",
    "Verif.Rpy.c43_notice_goes_back",
    "Verif.Rpy.c43_notice_erases"
   ],
   "note": "Proved for endpoint roles, locations and watched identifiers: sources endorsing with couples, and sources each of whose replies is endorsed under one establishment event and is not timed out in escrow. False otherwise, with witnesses: re-endorsement under older keys, the clean up that raises, escrow time-outs, key state notices."
  },
  {
   "property": "C44",
   "status": "proved",
   "theorems": [
    "Verif.Matter.c44_bexter_roundtrip",
    "Verif.Matter.c44_bexter_refuses",
    "Verif.Matter.c44_no_escape_loses"
   ],
   "note": ""
  },
  {
   "property": "C45",
   "status": "proved",
   "theorems": [
    "Verif.Matter.c45_number_roundtrip",
    "Verif.Matter.c45_number_auto"
   ],
   "note": ""
  },
  {
   "property": "C46",
   "status": "partial",
   "theorems": [
    "Verif.Matter.c46_decimer_roundtrip_partial",
    "Verif.Matter.c46_exponent_sign_flips"
   ],
   "note": "False for floats printed with an exponent sign: 1e+16 reads back as 1e-16 (c46_exponent_sign_flips). Proved for texts without '+'."
  },
  {
   "property": "C47",
   "status": "proved",
   "theorems": [
    "Verif.Matter.c47_dater_roundtrip",
    "Verif.Matter.c47_dater_short"
   ],
   "note": ""
  },
  {
   "property": "C48",
   "status": "proved",
   "theorems": [
    "Verif.Kel.c48_key_state"
   ],
   "note": ""
  },
  {
   "property": "C49",
   "status": "partial",
   "theorems": [
    "Verif.Kel.c49_distinct_positions_partial",
    "Verif.Kel.c49_one_key_counts_twice"
   ],
   "note": "False in general: one key's signature attached under two codes counts twice. Proved when stored signatures have different positions."
  },
  {
   "property": "C50",
   "status": "proved",
   "theorems": [
    "Verif.Matter.c50_sizes",
    "Verif.Matter.c50_all_documented"
   ],
   "note": ""
  },
  {
   "property": "C51",
   "status": "partial",
   "theorems": [
    "Verif.Kel.c51_inception",
    "Verif.Kel.c51_interaction",
    "Verif.Kel.c51_rotation_partial",
    "Verif.Kel.c51_cuts_in_order",
    "Verif.Kel.c51_cuts_refused"
   ],
   "note": "Proved but for rotations that name the witnesses to be removed in another order than that of the list: those are never accepted (proved), since equality of ordered sets minds the order."
  },
  {
   "property": "C52",
   "status": "proved",
   "theorems": [
    "Verif.Db.c52_map",
    "Verif.Db.c52_empty_key"
   ],
   "note": ""
  },
  {
   "property": "C53",
   "status": "partial",
   "theorems": [
    "Verif.Rct.c53_own_receipts_partial",
    "Verif.Rct.DemoRct.c53_through_escrow"
   ],
   "note": "Proved for receipts as they arrive; false for receipts that wait in escrow, where the test is not repeated (c53_through_escrow)."
  },
  {
   "property": "C54",
   "status": "partial",
   "theorems": [
    "Verif.Rct.c54_waits",
    "Verif.Rct.c54_patient",
    "Verif.Rct.c54_couple_stored",
    "Verif.Rct.c54_group_stored",
    "Verif.Rct.c54_witness_stored_partial",
    "Verif.Rct.c54_witness_never_stored",
    "Verif.Rct.DemoRct.c54_witness_receipt_lost"
   ],
   "note": "Proved for couples and groups. Indexed witness signatures are only matched with events waiting for witness signatures, so one that precedes an event accepted at once is lost (c54_witness_never_stored, c54_witness_receipt_lost)."
  },
  {
   "property": "C55",
   "status": "proved",
   "theorems": [
    "Verif.Tel.c55_entries_sealed",
    "Verif.Tel.c55_one_issuer",
    "Verif.Tel.c55_unsealed_refused",
    "Verif.Tel.c55_registries",
    "Verif.Tel.DemoTel.c55_superseded_seal"
   ],
   "note": "Accepted means first seen: a seal in an event that a recovery has since superseded counts too (c55_superseded_seal)."
  },
  {
   "property": "C56",
   "status": "proved",
   "theorems": [
    "Verif.Tel.c56_append_only",
    "Verif.Tel.c56_revoked_forever",
    "Verif.Tel.c56_reported"
   ],
   "note": "Reports are characterised for identifiers that are not registries. The reported source seal is the stored one, which need not be the one checked (c60_wrong_seal_reported)."
  },
  {
   "property": "C57",
   "status": "partial",
   "theorems": [
    "Verif.Tel.c57_one_issuer_partial",
    "Verif.Tel.DemoTel.c57_foreign_revocation",
    "Verif.Tel.DemoTel.c57_foreign_issuance"
   ],
   "note": "False: the log of a credential is shared by all registries, so the controller of any registry can revoke the credential or occupy it. Proved when all events delivered for the credential name one registry."
  },
  {
   "property": "C58",
   "status": "partial",
   "theorems": [
    "Verif.Tel.c58_gapless",
    "Verif.Tel.c58_kinds",
    "Verif.Tel.c58_registry_chain_partial",
    "Verif.Tel.DemoTel.c58_forked_after_restart",
    "Verif.Tel.DemoTel.c58_squatted"
   ],
   "note": "Numbering, kinds and links of revocations proved for all histories. Links of registry rotations proved without restarts and without credential events for registry identifiers; false otherwise, with witnesses."
  },
  {
   "property": "C59",
   "status": "partial",
   "theorems": [
    "Verif.Tel.c59_back_to_inception",
    "Verif.Tel.c59_unrotated_partial",
    "Verif.Tel.c59_backerless",
    "Verif.Tel.DemoTel.c59_rotation_forgotten"
   ],
   "note": "The stored state is written at inception only: exact result of a restart proved for all histories; unchanged state for registries not rotated, in particular those without backers; false after a rotation."
  },
  {
   "property": "C60",
   "status": "partial",
   "theorems": [
    "Verif.Tel.c60_waits",
    "Verif.Tel.c60_accepted_partial",
    "Verif.Tel.DemoTel.c60_wrong_seal_sticks",
    "Verif.Tel.DemoTel.c60_wrong_seal_reported",
    "Verif.Tel.DemoTel.c60_sibling_dropped",
    "Verif.Tel.DemoTel.c60_backers_never",
    "Verif.Tel.DemoTel.c60_own_dropped"
   ],
   "note": "Proved for credential events of registries without backers when nothing else waits for the same credential. False otherwise, with witnesses."
  },
  {
   "property": "C61",
   "status": "partial",
   "theorems": [
    "Verif.Tel.c61_backed_partial",
    "Verif.Tel.DemoTel.c61_one_backer_twice",
    "Verif.Tel.DemoTel.c61_backers_bypassed"
   ],
   "note": "Proved with signatures counted instead of backers, and for credential events with the threshold stored for the registry event they refer to. False as stated: one backer can count twice; the event referred to need not have been accepted."
  },
  {
   "property": "C62",
   "status": "partial",
   "theorems": [
    "Verif.Tel.c62_source",
    "Verif.Tel.c62_own_partial",
    "Verif.Tel.DemoTel.c62_own_credential_revoked"
   ],
   "note": "Proved for events that name the own registry. False for credentials issued in it: an event that names another registry is entered in their logs."
  },
  {
   "property": "C63",
   "status": "proved",
   "theorems": [
    "Verif.Vry.c63_accepted_iff",
    "Verif.Vry.c63_effect",
    "Verif.Vry.c63_saved",
    "Verif.Vry.c63_kept"
   ],
   "note": "Digests of credentials are assumed free of collisions; whether a credential fits a schema and whether an event is too old are parameters."
  },
  {
   "property": "C64",
   "status": "proved",
   "theorems": [
    "Verif.Vry.c64_ranked",
    "Verif.Vry.c64_wellFounded"
   ],
   "note": ""
  },
  {
   "property": "C65",
   "status": "partial",
   "theorems": [
    "Verif.Vry.c65_issued_partial",
    "Verif.Vry.c65_sealed",
    "Verif.Vry.DemoVry.c65_foreign_registry",
    "Verif.Vry.DemoVry.c65_foreign_event"
   ],
   "note": "False as stated: the issuer named by a credential is not compared with the issuer of its registry, and the log of a credential may hold events of another registry. Proved under those two conditions."
  },
  {
   "property": "C66",
   "status": "partial",
   "theorems": [
    "Verif.Vry.c66_revoked_edge_partial",
    "Verif.Vry.DemoVry.c66_revoked_accepted"
   ],
   "note": "Proved for credentials with an edge to the revoked one. False for the revoked credential itself, which is saved."
  },
  {
   "property": "C67",
   "status": "proved",
   "theorems": [
    "Verif.Vry.c67_saved",
    "Verif.Vry.c67_not_lost",
    "Verif.Vry.c67_arrival"
   ],
   "note": "Not dropped means: not timed out, and nothing wrong for good (schema mismatch, malformed or unsupported edge, revoked far end)."
  },
  {
   "property": "C68",
   "status": "proved",
   "theorems": [
    "Verif.Vry.c68_indices"
   ],
   "note": ""
  },
  {
   "property": "C69",
   "status": "partial",
   "theorems": [
    "Verif.Vry.c69_anchor_delivered_partial",
    "Verif.Vry.DemoVry.c69_anchor_replaced"
   ],
   "note": "False as stated: the anchor is stored unchecked and replaced by later deliveries. Proved: it is one that came with the very credential."
  },
  {
   "property": "C70",
   "status": "partial",
   "theorems": [
    "Verif.Mgr.c70_revealed_partial",
    "Verif.Mgr.DemoMgr.c70_skips"
   ],
   "note": "Proved for all histories as long as no call for the identifier itself was interrupted or refused midway since it was told. False after an interrupted rotation: the keys committed to can be passed over (c70_skips)."
  },
  {
   "property": "C71",
   "status": "partial",
   "theorems": [
    "Verif.Mgr.c71_sign_partial",
    "Verif.Mgr.c71_rotate_partial",
    "Verif.Mgr.c71_rotate_calm_partial",
    "Verif.Mgr.DemoMgr.c71_code_stuck",
    "Verif.Mgr.DemoMgr.c71_ingest_end",
    "Verif.Mgr.DemoMgr.c72_erased"
   ],
   "note": "Proved if encryption is used as meant, keys that cannot be encrypted are not asked for, no key is stored twice and ingestion starts at a given set; interruptions of inceptions, rotations and replays allowed. False without these conditions."
  },
  {
   "property": "C72",
   "status": "partial",
   "theorems": [
    "Verif.Mgr.c72_one_identifier",
    "Verif.Mgr.c72_across_partial",
    "Verif.Mgr.DemoMgr.c72_same_path",
    "Verif.Mgr.DemoMgr.c72_shared"
   ],
   "note": "Proved within one identifier for all histories, and across identifiers with the same number of digits. False across identifiers: paths have no separators."
  },
  {
   "property": "C73",
   "status": "partial",
   "theorems": [
    "Verif.Mgr.c73_erased_partial",
    "Verif.Mgr.DemoMgr.c73_kept_once"
   ],
   "note": "Proved for runs without interruptions that always erase. A rotation without erasure leaves keys that later ones do not erase."
  },
  {
   "property": "C74",
   "status": "partial",
   "theorems": [
    "Verif.Mgr.c74_at_rest_partial",
    "Verif.Mgr.c74_wrong_seed",
    "Verif.Mgr.c74_right_seed_partial",
    "Verif.Mgr.DemoMgr.c74_ingest_plain",
    "Verif.Mgr.DemoMgr.c74_later_plain",
    "Verif.Mgr.DemoMgr.c74_refused_used",
    "Verif.Mgr.DemoMgr.c74_same_unchecked",
    "Verif.Mgr.DemoMgr.c74_seed_alone"
   ],
   "note": "Proved if encryption is set up before the first keys and changed with fitting seeds, and nothing is ingested while encrypted. False otherwise."
  },
  {
   "property": "C75",
   "status": "partial",
   "theorems": [
    "Verif.Mgr.c75_rotate_partial",
    "Verif.Mgr.c71_sign_partial",
    "Verif.Mgr.c71_rotate_partial",
    "Verif.Mgr.DemoMgr.c75_incept_blocked",
    "Verif.Mgr.DemoMgr.c75_rotate_blocked",
    "Verif.Mgr.DemoMgr.c75_move_stuck",
    "Verif.Mgr.DemoMgr.c75_update_mixed",
    "Verif.Mgr.DemoMgr.c75_salt_lost"
   ],
   "note": "Proved: other identifiers are not harmed by interrupted inceptions, rotations and replays; after an interrupted rotation the keys in use are the old or the new ones and can sign. False: further rotations, inceptions, moves and changes of encryption can be blocked or lose keys."
  },
  {
   "property": "C76",
   "status": "proved",
   "theorems": [
    "Verif.Mgr.c76_sign"
   ],
   "note": "Signing by public keys, indexed; indices are integers in the model."
  },
  {
   "property": "C77",
   "status": "partial",
   "theorems": [
    "Verif.Mgr.c77_replayed_partial"
   ],
   "note": "Missing: encrypted key stores (false there, see C74) and starting positions past the given sets (see C71)."
  },
  {
   "property": "C78",
   "status": "proved",
   "theorems": [
    "Verif.Idr.c78_text",
    "Verif.Idr.c78_binary",
    "Verif.Idr.c78_aligned",
    "Verif.Idr.c78_test_codes"
   ],
   "note": "The test codes of Indexer, which are no signatures, lack it (c78_test_codes)."
  },
  {
   "property": "C79",
   "status": "proved",
   "theorems": [
    "Verif.Idr.c79_self_framing",
    "Verif.Idr.c79_self_framing_binary",
    "Verif.Idr.c79_stream",
    "Verif.Idr.c79_text_prefix",
    "Verif.Idr.c79_binary_prefix",
    "Verif.Idr.c79_unique"
   ],
   "note": ""
  },
  {
   "property": "C80",
   "status": "proved",
   "theorems": [
    "Verif.Idr.c80_accepts",
    "Verif.Idr.c80_parsed",
    "Verif.Idr.c80_signed",
    "Verif.Idr.c80_signed_roundtrip"
   ],
   "note": "The bytes of the signature are a parameter."
  },
  {
   "property": "C81",
   "status": "partial",
   "theorems": [
    "Verif.Ctr.c81_text",
    "Verif.Ctr.c81_binary",
    "Verif.Ctr.c81_aligned",
    "Verif.Ctr.c81_unique",
    "Verif.Ctr.c81_prefix",
    "Verif.Ctr.c81_prefix_binary",
    "Verif.Ctr.c81_promotion_partial",
    "Verif.Ctr.c81_long",
    "Verif.Ctr.c81_v2_long_forms",
    "Verif.Ctr.c81_v1_key_error"
   ],
   "note": "All proved, except the last sentence in version 1: there most codes have no long form, and a count above 4095 raises KeyError (c81_v1_key_error)."
  },
  {
   "property": "C82",
   "status": "proved",
   "theorems": [
    "Verif.Ctr.c82_text",
    "Verif.Ctr.c82_binary",
    "Verif.Ctr.c82_composable",
    "Verif.Ctr.c82_accepts",
    "Verif.Ctr.c82_nested",
    "Verif.Ctr.c82_streams"
   ],
   "note": ""
  },
  {
   "property": "C83",
   "status": "proved",
   "theorems": [
    "Verif.Ctr.c83_version",
    "Verif.Ctr.c83_refused",
    "Verif.Ctr.c83_injective"
   ],
   "note": ""
  },
  {
   "property": "C84",
   "status": "partial",
   "theorems": [
    "Verif.Prs.c84_roundtrip",
    "Verif.Prs.c84_smelled",
    "Verif.Prs.c84_parsed",
    "Verif.Prs.c84_smell_local",
    "Verif.Prs.c84_oversize"
   ],
   "note": "All proved, except that arguments which do not fit are not refused: the size of a message of 16 MiB or more overflows its field and no reader recognizes the version string (c84_oversize)."
  },
  {
   "property": "C85",
   "status": "partial",
   "theorems": [
    "Verif.Prs.c85_message_roundtrip",
    "Verif.Prs.DemoGeneric.c85_bare_dropped",
    "Verif.Prs.DemoGeneric.c85_second_group"
   ],
   "note": "All proved for the supported arguments. The decoding of bodies is a parameter; arguments without a reading in the parser (seals of last events, digests, roots and backers as bonds; inner signature groups above 4095 quadlets) are excluded."
  },
  {
   "property": "C86",
   "status": "partial",
   "theorems": [
    "Verif.Prs.c86_stream_roundtrip",
    "Verif.Prs.DemoGeneric.c86_truncated"
   ],
   "note": "All proved for the supported arguments. The decoding of bodies is a parameter; arguments without a reading in the parser (seals of last events, digests, roots and backers as bonds; inner signature groups above 4095 quadlets) are excluded."
  },
  {
   "property": "C87",
   "status": "partial",
   "theorems": [
    "Verif.Prs.c87_pieces",
    "Verif.Prs.DemoGeneric.c87_after_group"
   ],
   "note": "All proved for messages that tell where they end (attachments enclosed, or none); messages with attachments one after the other cannot be told from their beginnings. The decoding of bodies is a parameter; arguments without a reading in the parser (seals of last events, digests, roots and backers as bonds; inner signature groups above 4095 quadlets) are excluded."
  },
  {
   "property": "C88",
   "status": "partial",
   "theorems": [
    "Verif.Prs.c88_failures_stay_inside",
    "Verif.Prs.DemoGeneric.c88_livelock",
    "Verif.Prs.DemoGeneric.c88_flush"
   ],
   "note": "Proved for groups of at least eight bytes on streams that are not framed; shorter ones wait for more. Outside of generic groups the claim is false (c88_livelock, c88_flush)."
  },
  {
   "property": "C89",
   "status": "proved",
   "theorems": [
    "Verif.Prs.c89_text_or_binary"
   ],
   "note": "The decoding of bodies is a parameter."
  },
  {
   "property": "C90",
   "status": "proved",
   "theorems": [
    "Verif.Prs.c90_generic_transparent"
   ],
   "note": "For the messages of C85."
  },
  {
   "property": "C91",
   "status": "partial",
   "theorems": [
    "Verif.Krm.c91_single_partial",
    "Verif.Krm.c91_multi_partial",
    "Verif.Krm.c91_unsealed_partial",
    "Verif.Krm.c91_begin_partial",
    "Verif.Krm.c91_exchange_partial",
    "Verif.Krm.Demo.c91_multi_replayed",
    "Verif.Krm.Demo.c91_seal_replayed",
    "Verif.Krm.Demo.c91_ahead_replayed",
    "Verif.Krm.Demo.c91_late_replayed"
   ],
   "note": "Proved for senders with one key; for senders with several keys if no signatures wait and there are no seals or they are kept as long as signatures; for messages of exchanges if they do not arrive before their time stamp and exchanges are kept equally long. False without these conditions (the four witnesses)."
  },
  {
   "property": "C92",
   "status": "proved",
   "theorems": [
    "Verif.Krm.c92_authentic",
    "Verif.Krm.c92_distinct"
   ],
   "note": "Verification of signatures and the key event logs are parameters; a number as threshold counts signatures with different codes separately."
  },
  {
   "property": "C93",
   "status": "proved",
   "theorems": [
    "Verif.Krm.c93_timely"
   ],
   "note": ""
  },
  {
   "property": "C94",
   "status": "partial",
   "theorems": [
    "Verif.Krm.c94_narrow_partial",
    "Verif.Krm.Demo.c94_widened",
    "Verif.Krm.Demo.c94_removed",
    "Verif.Krm.Demo.c94_restarted",
    "Verif.Krm.Demo.c94_taken_back",
    "Verif.Krm.Demo.c94_stuck"
   ],
   "note": "Proved for settings that only become narrower. False otherwise (the five witnesses)."
  },
  {
   "property": "C95",
   "status": "proved",
   "theorems": [
    "Verif.Krm.c95_coverage",
    "Verif.Krm.c95_refused",
    "Verif.Krm.c95_holes"
   ],
   "note": ""
  },
  {
   "property": "C96",
   "status": "proved",
   "theorems": [
    "Verif.Krm.c96_messages",
    "Verif.Krm.c96_exchanges",
    "Verif.Krm.c96_waiting"
   ],
   "note": ""
  },
  {
   "property": "C97",
   "status": "proved",
   "theorems": [
    "Verif.Prs.c97_parse",
    "Verif.Prs.c97_pieces",
    "Verif.Prs.c97_cold"
   ],
   "note": "The decoding of bodies is a parameter."
  },
  {
   "property": "C98",
   "status": "partial",
   "theorems": [
    "Verif.Krm.c98_at_once",
    "Verif.Krm.c98_takes_effect_partial",
    "Verif.Krm.c98_refused",
    "Verif.Krm.c98_restart",
    "Verif.Krm.Demo.c98_drift_kept",
    "Verif.Krm.Demo.c98_left_over",
    "Verif.Krm.Demo.c94_taken_back",
    "Verif.Krm.Demo.c94_stuck"
   ],
   "note": "Proved for a change that is not followed by another before it takes effect, and for all but the drift of cache types that were there before. The rest is false (the witnesses)."
  },
  {
   "property": "C99",
   "status": "proved",
   "theorems": [
    "Verif.Krm.c99_at_once",
    "Verif.Krm.c99_begin",
    "Verif.Krm.c99_follow",
    "Verif.Krm.c99_gathered",
    "Verif.Krm.c99_exempt"
   ],
   "note": "Shown by what comes with it means: the last seal is in the event it points to, or the signatures are good; of several seals only the last counts. Settings are without waiting changes at the time of delivery."
  },
  {
   "property": "C100",
   "status": "partial",
   "theorems": [
    "Verif.Krm.c100_attached_partial",
    "Verif.Krm.Demo.c100_sealed_unchecked"
   ],
   "note": "Proved for messages without seals of the sender whose sender is no key. With a seal the signatures are handed on unchecked (witness)."
  },
  {
   "property": "C101",
   "status": "proved",
   "theorems": [
    "Verif.Exc.c101_saved",
    "Verif.Exc.c101_waiting",
    "Verif.Exc.Demo.c101_old_key",
    "Verif.Exc.Demo.c101_first_key"
   ],
   "note": "Any event of the sender that is known will do, also one whose keys have been replaced; a sender that is the name of its first key can always sign with it (the witnesses)."
  },
  {
   "property": "C102",
   "status": "partial",
   "theorems": [
    "Verif.Exc.c102_handled",
    "Verif.Exc.c102_saved",
    "Verif.Exc.c102_veto",
    "Verif.Exc.c102_once1",
    "Verif.Exc.c102_once2",
    "Verif.Exc.Demo.c102_twice"
   ],
   "note": "That nothing is given twice is proved of answers in the issuance and presentation exchange; messages that open something are handled again when they come again (witness)."
  },
  {
   "property": "C103",
   "status": "partial",
   "theorems": [
    "Verif.Exc.c103_thread2",
    "Verif.Exc.c103_thread1_partial",
    "Verif.Exc.Demo.c103_foreign_route",
    "Verif.Exc.Demo.c103_spurned_grant"
   ],
   "note": "Proved of the second version of the handler; of the first if no message of another route ends in a verb of the protocol, and false without that (witness). The versions differ in whether a grant can be spurned."
  },
  {
   "property": "C104",
   "status": "proved",
   "theorems": [
    "Verif.Exc.c104_one2",
    "Verif.Exc.c104_one1",
    "Verif.Exc.Demo.c104_stranger",
    "Verif.Exc.Demo.c104_blocked"
   ],
   "note": "Not claimed: that the answer is of someone in the conversation, or that the one who was asked can answer (witnesses)."
  },
  {
   "property": "C105",
   "status": "partial",
   "theorems": [
    "Verif.Exc.c105_gather_partial",
    "Verif.Exc.Demo.c105_poisoned"
   ],
   "note": "Proved if all deliveries name the same event of the sender, whose keys are known, and nothing else is wanting; false otherwise (witness)."
  },
  {
   "property": "C106",
   "status": "proved",
   "theorems": [
    "Verif.Exc.c106_timeout",
    "Verif.Exc.Demo.c106_kept"
   ],
   "note": "Only the message is dropped; its signatures are kept."
  },
  {
   "property": "C107",
   "status": "proved",
   "theorems": [
    "Verif.Exc.c107_essr",
    "Verif.Exc.Demo.c107_lost"
   ],
   "note": "Digests of attachments are a parameter. Not claimed: that such a message arrives (witness)."
  },
  {
   "property": "C108",
   "status": "partial",
   "theorems": [
    "Verif.Exc.c108_again_partial",
    "Verif.Exc.c108_gathered_partial",
    "Verif.Exc.Demo.c108_unreadable",
    "Verif.Exc.Demo.c108_no_answer",
    "Verif.Exc.Demo.c108_replaced"
   ],
   "note": "Proved if every group that came with it is enough, or all came for the same event and are enough together. False otherwise: anyone can make a saved message unreadable (witnesses)."
  },
  {
   "property": "C109",
   "status": "partial",
   "theorems": [
    "Verif.Mbx.c109_stored_partial",
    "Verif.Mbx.c109_read_partial",
    "Verif.Mbx.c109_whole_partial",
    "Verif.Mbx.Demo.c109_jammed",
    "Verif.Mbx.Demo.c109_hidden",
    "Verif.Mbx.Demo.c109_reused",
    "Verif.Mbx.Demo.c109_gap"
   ],
   "note": "Proved for mailbox keys of which none is another followed by a dot, with digests of messages injective; interrupted stores leave gaps and messages that are not text make reading fail, both stated exactly. False of nested topics: one forwarded message stops a topic for good (witnesses)."
  },
  {
   "property": "C110",
   "status": "partial",
   "theorems": [
    "Verif.Mbx.c110_none_skipped_partial",
    "Verif.Mbx.c110_delivered_partial",
    "Verif.Mbx.Demo.c110_lost",
    "Verif.Mbx.Demo.c110_poisoned"
   ],
   "note": "Handed on to the queue of the client; one that dies loses what is in it, and one message that is not text stops all topics (witnesses)."
  },
  {
   "property": "C111",
   "status": "partial",
   "theorems": [
    "Verif.Mbx.c111_exact_partial",
    "Verif.Mbx.Demo.c111_twice_gap",
    "Verif.Mbx.Demo.c111_twice_crash"
   ],
   "note": "Proved while neither side dies and no message is empty; otherwise messages can be handed on twice (witnesses)."
  },
  {
   "property": "C112",
   "status": "partial",
   "theorems": [
    "Verif.Mbx.c112_own_partial",
    "Verif.Mbx.c112_address",
    "Verif.Mbx.c112_others_partial",
    "Verif.Mbx.Demo.c112_anyone"
   ],
   "note": "Proved for mailbox keys of which none is another followed by a dot. That only the owner can read is false: queries are answered whoever asks (witness)."
  },
  {
   "property": "C113",
   "status": "partial",
   "theorems": [
    "Verif.Mbx.c113_own",
    "Verif.Mbx.c113_kept",
    "Verif.Mbx.c113_found_partial",
    "Verif.Mbx.c113_starved"
   ],
   "note": "That every request gets its stream is proved of one that is asked alone, and false of several: two can pass each other their cues for ever (witness)."
  },
  {
   "property": "C114",
   "status": "proved",
   "theorems": [
    "Verif.Exc.c114_nested"
   ],
   "note": "Of the second version of the handler; the first does not look at nested messages."
  },
  {
   "property": "C115",
   "status": "proved",
   "theorems": [
    "Verif.Exc.c115_asked"
   ],
   "note": ""
  },
  {
   "property": "C116",
   "status": "partial",
   "theorems": [
    "Verif.Mad.c116_enough",
    "Verif.Mad.c116_truncated",
    "Verif.Mad.c116_text_partial",
    "Verif.Mad.c116_binary_partial",
    "Verif.Mad.c116_base64_partial",
    "Verif.Mad.c116_injective_partial",
    "Verif.Mad.Demo.c116_counterexamples",
    "Verif.Mad.Demo.c116_lenient",
    "Verif.Mad.Demo.c116_not_base64"
   ],
   "note": "Proved except for texts that are a primitive spelled with + or / and numbers printed with +, for which it is false: 1e+16 is read as 1e-16 (witness). The printed forms of numbers and UTF-8 are parameters."
  },
  {
   "property": "C117",
   "status": "partial",
   "theorems": [
    "Verif.Mad.c117_made_verifies",
    "Verif.Mad.c117_others_kept",
    "Verif.Mad.c117_code",
    "Verif.Mad.c117_serialized",
    "Verif.Mad.c117_checked",
    "Verif.Mad.c117_idempotent",
    "Verif.Mad.c117_received_partial"
   ],
   "note": "That it verifies when received is proved of the native serialization, with the exceptions of C116; the rest is proved without restriction."
  },
  {
   "property": "C118",
   "status": "partial",
   "theorems": [
    "Verif.Mad.c118_commits_partial",
    "Verif.Mad.c118_commits_other",
    "Verif.Mad.c118_determines_partial",
    "Verif.Mad.Demo.c118_counterexample",
    "Verif.Mad.Demo.c118_other_saids"
   ],
   "note": "Proved with the exceptions of C116, and for maps with one SAID field or up to the SAID fields; false of the exceptions and of the codes of other SAID fields (witnesses)."
  },
  {
   "property": "C119",
   "status": "partial",
   "theorems": [
    "Verif.Mad.c119_compacts_partial",
    "Verif.Mad.c119_compact_verifies_partial",
    "Verif.Mad.Demo.c119_counterexamples"
   ],
   "note": "Proved of maps whose labels have no dot and which have the first SAID field if they have any; without these compaction need not end (witnesses)."
  },
  {
   "property": "C120",
   "status": "partial",
   "theorems": [
    "Verif.Mad.c120_disclosures_partial",
    "Verif.Mad.c120_hidden_partial"
   ],
   "note": "Proved of the maps of C119. The SAIDs stated in nested maps do not matter either: they are replaced, not checked."
  },
  {
   "property": "C121",
   "status": "partial",
   "theorems": [
    "Verif.Mad.c121_agree_partial",
    "Verif.Mad.c121_agree_other_partial",
    "Verif.Mad.Demo.c121_counterexample"
   ],
   "note": "Proved of maps as in C119 at every level, with the exceptions of C116 for the native serialization and for injective dumps of the other kinds; false of nested maps with a SAID field but not the first (witness)."
  },
  {
   "property": "C122",
   "status": "partial",
   "theorems": [
    "Verif.Mad.c122_made_verifies",
    "Verif.Mad.c122_kept",
    "Verif.Mad.c122_disclosure_partial",
    "Verif.Mad.c122_selective_partial",
    "Verif.Mad.c122_checked",
    "Verif.Mad.Demo.c122_counterexample",
    "Verif.Mad.Demo.c122_lenient"
   ],
   "note": "Proved of aggregates made with the strict rule for labels, since verifyDisclosure always applies it; of the other kinds for elements with the first SAID field, without which it is false (witnesses)."
  },
  {
   "property": "C123",
   "status": "partial",
   "theorems": [
    "Verif.Mad.c123_commits_partial",
    "Verif.Mad.c123_commits_other_partial",
    "Verif.Mad.c123_same_map",
    "Verif.Mad.Demo.c122_counterexample"
   ],
   "note": "Proved with the exceptions of C116 for the native serialization, and for injective dumps and elements with the first SAID field for the other kinds; false without that field (witness). Maps agree up to the other SAID fields; with one such field they are the same."
  },
  {
   "property": "C124",
   "status": "partial",
   "theorems": [
    "Verif.Mad.c124_received_partial",
    "Verif.Mad.c124_made_partial",
    "Verif.Mad.c124_checked"
   ],
   "note": "Proved of the native serialization in text, with the exceptions of C116."
  },
  {
   "property": "C125",
   "status": "proved",
   "theorems": [
    "Verif.Ser.c125_made_verifies",
    "Verif.Ser.c125_made_json",
    "Verif.Ser.c125_made_accepted"
   ],
   "note": "For JSON without assumptions on the serialization; for MessagePack, CBOR and native CESR given that the length does not depend on which texts of a given length are in the fields, or that the version string is not among them. Digest codes that are asked for are those of digests. The size is one that the version string has room for."
  },
  {
   "property": "C126",
   "status": "proved",
   "theorems": [
    "Verif.Ser.c126_commits_json",
    "Verif.Ser.c126_determines",
    "Verif.Ser.c126_commits",
    "Verif.Ser.c126_commits_native",
    "Verif.Ser.Demo.c126_said_not_all"
   ],
   "note": "For JSON without assumptions on the serialization; for the other kinds given a reader that reads what is written. That the codes must be the same is needed (witness)."
  },
  {
   "property": "C127",
   "status": "proved",
   "theorems": [
    "Verif.Ser.c127_fields"
   ],
   "note": "For the classes Serder and SerderKERI."
  },
  {
   "property": "C128",
   "status": "proved",
   "theorems": [
    "Verif.Ser.c128_prefix"
   ],
   "note": "Query, reply, prod, bare and exchange messages of version 1.0 have no prefix to check."
  },
  {
   "property": "C129",
   "status": "partial",
   "theorems": [
    "Verif.Ser.c129_accepted_right",
    "Verif.Ser.c129_stream",
    "Verif.Ser.c129_read_back",
    "Verif.Ser.c129_made_read_back"
   ],
   "note": "Given a reader that reads what is written and gives nothing else. That a message is found on the stream is proved of JSON; native CESR messages are read given their version."
  },
  {
   "property": "C130",
   "status": "partial",
   "theorems": [
    "Verif.Hab.c130_sync_partial",
    "Verif.Hab.DemoHab.c130_short_weights"
   ],
   "note": "False of rotations and inceptions with fewer weights than keys (witness given); proved for all other calls. Given that keys made are new, digests of events do not collide, and keys made can be encrypted if the key store is."
  },
  {
   "property": "C131",
   "status": "partial",
   "theorems": [
    "Verif.Hab.c131_result_partial",
    "Verif.Hab.DemoHab.c131_short_weights"
   ],
   "note": "False with fewer weights than keys (witness given); proved for all other calls."
  },
  {
   "property": "C132",
   "status": "partial",
   "theorems": [
    "Verif.Hab.c132_rotate",
    "Verif.Hab.c132_interact",
    "Verif.Hab.c132_make",
    "Verif.Hab.c132_content"
   ],
   "note": "With fewer weights than keys excluded; given that keys, added witnesses and digests can be used as such."
  },
  {
   "property": "C133",
   "status": "proved",
   "theorems": [
    "Verif.Hab.c133_default",
    "Verif.Hab.c133_clear"
   ],
   "note": "After a refused rotation it may fail, see C134."
  },
  {
   "property": "C134",
   "status": "proved",
   "theorems": [
    "Verif.Hab.c134_refused",
    "Verif.Hab.c134_stash",
    "Verif.Hab.DemoHab.c134_stash_default"
   ],
   "note": "The last theorem is a history in which the keys left behind by a refused rotation make rotations without arguments fail."
  },
  {
   "property": "C135",
   "status": "proved",
   "theorems": [
    "Verif.Hab.c135_erased"
   ],
   "note": ""
  },
  {
   "property": "C136",
   "status": "partial",
   "theorems": [
    "Verif.Hab.c136_before_partial",
    "Verif.Hab.c136_after_partial",
    "Verif.Hab.c136_stuck"
   ],
   "note": "False between the first write of the key store and the logging of the event: then no later rotation succeeds (c136_stuck). Proved before and after."
  },
  {
   "property": "C137",
   "status": "partial",
   "theorems": [
    "Verif.Grp.c137_reported",
    "Verif.Grp.c137_logged_partial",
    "Verif.Grp.c137_stable",
    "Verif.Grp.c137_complete",
    "Verif.Grp.Demo.c137_other"
   ],
   "note": "That the event itself has been logged is false when another one is logged at its number, since the two are not compared (witness); proved otherwise."
  },
  {
   "property": "C138",
   "status": "partial",
   "theorems": [
    "Verif.Grp.c138_kept_partial",
    "Verif.Grp.Demo.c138_two",
    "Verif.Grp.Demo.c138_crash",
    "Verif.Grp.Demo.c138_raise"
   ],
   "note": "False when two events of a group wait, when a pass is interrupted and when it raises an exception (witnesses); proved otherwise."
  },
  {
   "property": "C139",
   "status": "partial",
   "theorems": [
    "Verif.Grp.c139_completed",
    "Verif.Grp.c139_stuck"
   ],
   "note": "Proved unless the pass raises an exception; false after a restart of the member with the first key when the group has witnesses (c139_stuck)."
  },
  {
   "property": "C140",
   "status": "proved",
   "theorems": [
    "Verif.Grp.c140_approved"
   ],
   "note": ""
  },
  {
   "property": "C141",
   "status": "partial",
   "theorems": [
    "Verif.Grp.c141_kept_partial",
    "Verif.Grp.Demo.c141_crash"
   ],
   "note": "False when a pass is interrupted (witness); proved for all other histories, with exceptions. Given that digests of events do not collide."
  },
  {
   "property": "C142",
   "status": "partial",
   "theorems": [
    "Verif.Grp.c142_approved",
    "Verif.Grp.c142_completed",
    "Verif.Grp.c142_stuck",
    "Verif.Grp.c142_no_publisher"
   ],
   "note": "Proved unless the pass raises an exception, of an identifier with one waiting event; false after a restart and of a second delegation that waits when the first is completed (c142_stuck, c142_no_publisher)."
  },
  {
   "property": "C143",
   "status": "partial",
   "theorems": [
    "Verif.Grp.c143_counselor",
    "Verif.Grp.c143_anchorer_partial",
    "Verif.Grp.Demo.c143_other"
   ],
   "note": "Proved of the Counselor; of the Anchorer if the approved event is the last one, else false (witness)."
  },
  {
   "property": "C144",
   "status": "partial",
   "theorems": [
    "Verif.Mux.c144_approved_partial",
    "Verif.Mux.Demo.c144_other",
    "Verif.Mux.Demo.c144_attached"
   ],
   "note": "Proved of messages of the second version; those of the first version can wrap anything under the SAID of an approved proposal (witnesses). Given that SAIDs of messages do not collide."
  },
  {
   "property": "C145",
   "status": "partial",
   "theorems": [
    "Verif.Mux.c145_all_partial",
    "Verif.Mux.c145_stored",
    "Verif.Mux.Demo.c145_blocked",
    "Verif.Mux.Demo.c145_crash"
   ],
   "note": "Proved for sequences in which no call raises an exception and none is interrupted; false otherwise (witnesses)."
  },
  {
   "property": "C146",
   "status": "proved",
   "theorems": [
    "Verif.Mux.c146_told",
    "Verif.Mux.c146_tells"
   ],
   "note": ""
  },
  {
   "property": "C147",
   "status": "proved",
   "theorems": [
    "Verif.Hand.c147_delivered",
    "Verif.Hand.c147_contents",
    "Verif.Hand.c147_handed"
   ],
   "note": "Queries are the subject of C150."
  },
  {
   "property": "C148",
   "status": "proved",
   "theorems": [
    "Verif.Hand.c148_fits",
    "Verif.Hand.c148_stream"
   ],
   "note": "Events of credential registries and credentials need no signatures; they are anchored by seals."
  },
  {
   "property": "C149",
   "status": "partial",
   "theorems": [
    "Verif.Hand.c149_refused_partial",
    "Verif.Hand.c149_replayed",
    "Verif.Hand.c149_v1_ignored",
    "Verif.Hand.Demo.c149_denied_v1"
   ],
   "note": "False of messages of version 1, for which the lists are not looked at; proved of version 2, as is that messages not passed by replay protection reach no processor."
  },
  {
   "property": "C150",
   "status": "partial",
   "theorems": [
    "Verif.Hand.c150_group",
    "Verif.Hand.c150_couples_partial",
    "Verif.Hand.c150_couples_lost"
   ],
   "note": "Signature groups: proved for both versions. Couples: proved of version 2; in version 1 such queries are never handed over (c150_couples_lost)."
  },
  {
   "property": "C151",
   "status": "partial",
   "theorems": [
    "Verif.Hand.c151_receipts_partial",
    "Verif.Hand.c151_receipts_lost",
    "Verif.Hand.Demo.c151_early"
   ],
   "note": "False when the event has to wait: then the receipts attached to it are dropped. Proved when the event is accepted or known."
  },
  {
   "property": "C152",
   "status": "proved",
   "theorems": [
    "Verif.Hand.c152_bytes",
    "Verif.Hand.c152_reached",
    "Verif.Hand.c152_signed"
   ],
   "note": "The decoding of bodies by their Serder class is a parameter. Signatures to the threshold: given that digests of the events in the stream do not collide."
  },
  {
   "property": "C153",
   "status": "proved",
   "theorems": [
    "Verif.Iss.c153_logged",
    "Verif.Iss.c153_asked",
    "Verif.Iss.c153_sent"
   ],
   "note": "Given that digests do not collide. The receipts are counted, and compared with the witnesses the controller has at that moment."
  },
  {
   "property": "C154",
   "status": "partial",
   "theorems": [
    "Verif.Iss.c154_kept_partial",
    "Verif.Iss.c154_done_kept",
    "Verif.Iss.DemoIss.c154_crash_lost",
    "Verif.Iss.DemoIss.c154_crash_lost_group",
    "Verif.Iss.DemoIss.c154_group_dropped"
   ],
   "note": "Proved if passes of the Registrar are not interrupted and groups complete no other event; false otherwise (witnesses). That entries of completion stay is proved without conditions."
  },
  {
   "property": "C155",
   "status": "partial",
   "theorems": [
    "Verif.Iss.c155_done",
    "Verif.Iss.c155_complete",
    "Verif.Iss.c155_restart_waits",
    "Verif.Iss.c155_restart_unreported",
    "Verif.Iss.DemoIss.c155_stuck"
   ],
   "note": "Proved without restarts. False with them: events waiting for receipts wait forever, and events reported as complete are not so reported any more (proved of all such states)."
  },
  {
   "property": "C156",
   "status": "partial",
   "theorems": [
    "Verif.Iss.c156_sent_partial",
    "Verif.Iss.DemoIss.c156_revocation_early"
   ],
   "note": "Proved if the Registrar was asked about one event of the log only; false of revocations."
  },
  {
   "property": "C157",
   "status": "proved",
   "theorems": [
    "Verif.Iss.c157_issued",
    "Verif.Iss.c157_kept"
   ],
   "note": "Given that digests do not collide."
  },
  {
   "property": "C158",
   "status": "partial",
   "theorems": [
    "Verif.Iss.c158_kept_partial",
    "Verif.Iss.c158_entered",
    "Verif.Iss.c158_completes",
    "Verif.Iss.c158_restart_never",
    "Verif.Iss.DemoIss.c158_crash_lost",
    "Verif.Iss.DemoIss.c158_stuck"
   ],
   "note": "Proved if passes of the Credentialer are not interrupted, and without restart after sending; false otherwise."
  },
  {
   "property": "C159",
   "status": "partial",
   "theorems": [
    "Verif.Iss.c159_accepted_partial",
    "Verif.Iss.c159_group",
    "Verif.Iss.DemoIss.c159_other_event"
   ],
   "note": "Groups: proved. Single controllers: proved if the seal is in the last key event, false otherwise: the key event given is not used."
  },
  {
   "property": "C160",
   "status": "proved",
   "theorems": [
    "Verif.Bsr.c160_log",
    "Verif.Bsr.c160_chain"
   ],
   "note": "Given that digests of registry events do not collide."
  },
  {
   "property": "C161",
   "status": "proved",
   "theorems": [
    "Verif.Bsr.c161_stays"
   ],
   "note": "Given that digests of registry events do not collide."
  },
  {
   "property": "C162",
   "status": "partial",
   "theorems": [
    "Verif.Bsr.c162_head_partial",
    "Verif.Bsr.c162_accepted",
    "Verif.Bsr.c162_behind",
    "Verif.Bsr.c162_stuck",
    "Verif.Bsr.DemoBsr.head_behind",
    "Verif.Bsr.DemoBsr.refused"
   ],
   "note": "Proved without crashes. A crash between two writes leaves the head behind; then updates are refused, and nothing but an event handed in from elsewhere repairs it (proved of all such states)."
  },
  {
   "property": "C163",
   "status": "partial",
   "theorems": [
    "Verif.Bsr.c163_sealed_partial",
    "Verif.Bsr.c163_some",
    "Verif.Bsr.DemoBsr.other_log"
   ],
   "note": "Proved if objects are attached to registries of their own habitat. Otherwise false: the log of the habitat of the object is searched, not that of the issuer; some log had the seal in every case."
  },
  {
   "property": "C164",
   "status": "proved",
   "theorems": [
    "Verif.Bsr.c164_raised",
    "Verif.Bsr.c164_taken",
    "Verif.Bsr.c164_prior"
   ],
   "note": ""
  },
  {
   "property": "C165",
   "status": "partial",
   "theorems": [
    "Verif.Bsr.c165_result",
    "Verif.Bsr.c165_kept_partial",
    "Verif.Bsr.DemoBsr.lost"
   ],
   "note": "The results: proved. That waiting events are kept: proved without crashes and with objects of the own habitat; a crash in a pass loses an entry (witness)."
  },
  {
   "property": "C166",
   "status": "proved",
   "theorems": [
    "Verif.Bsr.c166_pass"
   ],
   "note": "Given that digests of key events and of registry events do not collide."
  },
  {
   "property": "C167",
   "status": "partial",
   "theorems": [
    "Verif.Bsr.c167_queue_partial",
    "Verif.Bsr.DemoBsr.first_wins",
    "Verif.Bsr.DemoBsr.later_wins"
   ],
   "note": "Proved of queued updates. False in general: events that are not queued are accepted in the order of arrival (witness)."
  },
  {
   "property": "C168",
   "status": "partial",
   "theorems": [
    "Verif.Bsr.c168_issue_partial",
    "Verif.Bsr.c168_refused",
    "Verif.Bsr.DemoBsr.dropped",
    "Verif.Bsr.DemoBsr.goes_back"
   ],
   "note": "Place, predecessor and result: proved while the head is up to date; refusal of other credentials always. Acceptance once sealed is false: an update made before the one before it is accepted competes with it, and the loser is dropped."
  },
  {
   "property": "C169",
   "status": "partial",
   "theorems": [
    "Verif.Bsr.c169_alias_partial",
    "Verif.Bsr.c169_made",
    "Verif.Bsr.c169_open",
    "Verif.Bsr.c169_reopen",
    "Verif.Bsr.c169_dotted",
    "Verif.Bsr.DemoBsr.unloadable",
    "Verif.Bsr.DemoBsr.orphan"
   ],
   "note": "Proved of aliases without the separator while the habitats are loaded. With an alias that has one, every later opening raises (proved); a crash while a registry is made can leave it without alias."
  },
  {
   "property": "C170",
   "status": "partial",
   "theorems": [
    "Verif.Cesr.c170_read_back_partial",
    "Verif.Cesr.c170_from_raw_partial",
    "Verif.Cesr.c170_big_run",
    "Verif.Cesr.Demo.c170_unreadable",
    "Verif.Cesr.Demo.c170_changed"
   ],
   "note": "Proved of values as the builders write them (MsgOk). False of others: empty digests are unreadable, long runs of seals are unreadable, integers become text."
  },
  {
   "property": "C171",
   "status": "partial",
   "theorems": [
    "Verif.Cesr.c171_commits_partial",
    "Verif.Cesr.Demo.c171_counterexamples"
   ],
   "note": "Proved of values as the builders write them. False of others: unknown seals are left out of the bytes, different lists and routes have the same bytes."
  },
  {
   "property": "C172",
   "status": "proved",
   "theorems": [
    "Verif.Cesr.c172_unversioned",
    "Verif.Cesr.c172_kind_ok",
    "Verif.Cesr.Demo.rights"
   ],
   "note": "c172_kind_ok is the hypothesis of c125_made_verifies for native messages; used for concrete messages in Demo.rights."
  },
  {
   "property": "C173",
   "status": "partial",
   "theorems": [
    "Verif.Cesr.c173_text_partial",
    "Verif.Cesr.c173_truncated",
    "Verif.Cesr.c173_binary_alone_partial",
    "Verif.Cesr.c173_binary_strip_fails",
    "Verif.Cesr.c173_binary_swapped"
   ],
   "note": "Text domain: proved of values as the builders write them. Binary domain: false, proved of all messages: with strip a message at the end of the stream is not read, and the second of two is given in place of the first."
  },
  {
   "property": "C174",
   "status": "partial",
   "theorems": [
    "Verif.Replay.c174_replay_partial",
    "Verif.Replay.c174_complete",
    "Verif.Replay.Demo.c174_counterexamples"
   ],
   "note": "Completeness of the replay: proved. Reproduction: proved of logs of non-delegated identifiers, no event first seen twice, witness signatures stored, a weight for every key, the receiver no witness. False without these (witnesses)."
  },
  {
   "property": "C175",
   "status": "partial",
   "theorems": [
    "Verif.Replay.c175_verified",
    "Verif.Replay.c175_kept_partial",
    "Verif.Replay.Demo.c175_counterexamples"
   ],
   "note": "Re-verification of logs: proved of any database. That nothing is lost: proved under the conditions of C174. False otherwise: own events that wait for receipts are lost and can be replaced, delegated identifiers that sort before their delegator lose their log."
  },
  {
   "property": "C176",
   "status": "partial",
   "theorems": [
    "Verif.Sub.c176_keys",
    "Verif.Sub.c176_counterexamples"
   ],
   "note": "Proved of parts without separator. False of parts that contain it: nothing checks them."
  },
  {
   "property": "C177",
   "status": "proved",
   "theorems": [
    "Verif.Sub.c177_map",
    "Verif.Sub.c177_refused"
   ],
   "note": "For keys of parts without separator (C176) and values that the codec reads back (C180)."
  },
  {
   "property": "C178",
   "status": "partial",
   "theorems": [
    "Verif.Sub.c178_sets_partial",
    "Verif.Sub.c178_nested",
    "Verif.Sub.c178_other_sep"
   ],
   "note": "Proved if no key is another one followed by a part that begins with 0, and with getLast only for the separator '.'. False otherwise (witnesses)."
  },
  {
   "property": "C179",
   "status": "partial",
   "theorems": [
    "Verif.Sub.c179_branch",
    "Verif.Sub.c179_no_topive",
    "Verif.Sub.c179_sets"
   ],
   "note": "Proved of single values with topive and leading parts whose last one is not empty. Without topive the branch of (a, b) has (a, bc) as well; branches of sets include the key of the leading parts itself (witnesses)."
  },
  {
   "property": "C180",
   "status": "partial",
   "theorems": [
    "Verif.Sub.c180_b64_partial",
    "Verif.Sub.c180_b64_refused",
    "Verif.Sub.c180_b64_empty",
    "Verif.Sub.c180_cesr",
    "Verif.Sub.c180_cesr_refused",
    "Verif.Sub.c180_cesr_lost",
    "Verif.Sub.c180_records_partial",
    "Verif.Sub.c180_records_class",
    "Verif.Sub.c180_records_unknown",
    "Verif.Sub.c180_records_inside"
   ],
   "note": "Proved of at least one Base64 text, of primitives of the classes of the sub-database, and of records that hold records only where a dataclass is annotated. False of no text, of more primitives than classes unless strict, of records in lists (witnesses)."
  },
  {
   "property": "C181",
   "status": "partial",
   "theorems": [
    "Verif.Oobi.c181_held_partial",
    "Verif.Oobi.c181_dropped"
   ],
   "note": "Proved for all histories where a client can be made for the URL whenever it is tried. False otherwise: the URL is dropped without result or cue (witness)."
  },
  {
   "property": "C182",
   "status": "partial",
   "theorems": [
    "Verif.Oobi.c182_result",
    "Verif.Oobi.c182_old",
    "Verif.Oobi.c182_again"
   ],
   "note": "That a recorded result stays is proved of all histories. It is not that of the answer if the URL was asked for before: the old result is kept, the cue says the new one; and resolved URLs are requested again (witnesses)."
  },
  {
   "property": "C183",
   "status": "partial",
   "theorems": [
    "Verif.Oobi.c183_settled",
    "Verif.Oobi.c183_stuck",
    "Verif.Oobi.c183_untyped",
    "Verif.Oobi.c183_foreign",
    "Verif.Oobi.c183_unmatched"
   ],
   "note": "Proved: a pass over requested URLs raises nothing and settles all final answers, if no URL has the separator > and answers of status 200 have a content type. Proved false: one URL with > that is asked for stops every result of all URLs for ever, in all histories (c183_stuck). Servers that never answer are not timed out and not part of the claim."
  },
  {
   "property": "C184",
   "status": "proved",
   "theorems": [
    "Verif.Oobi.c184_schema",
    "Verif.Oobi.c184_silent"
   ],
   "note": "SAIDs of schemas are computed by a parameter (schemer), see C13 for what a SAID commits to. c184_silent: no cue is given if the schema is served as application/json."
  },
  {
   "property": "C185",
   "status": "partial",
   "theorems": [
    "Verif.Oobi.c185_alias_partial",
    "Verif.Oobi.c185_hijacked",
    "Verif.Oobi.c185_unasked"
   ],
   "note": "Proved: the alias is from a record that was asked for or hinted by a URL. False: the server of another URL names the identifier that gets the alias, and peers can introduce URLs that hint aliases (witnesses)."
  },
  {
   "property": "C186",
   "status": "proved",
   "theorems": [
    "Verif.Oobi.c186_multi"
   ],
   "note": "For URLs without the separator and without an earlier result (C182)."
  },
  {
   "property": "C187",
   "status": "partial",
   "theorems": [
    "Verif.Oobi.c187_mfa_partial",
    "Verif.Oobi.c187_statuses"
   ],
   "note": "Exact characterisation: status at most 200. Statuses 201 to 399 are refused and those below 200 accepted (witness)."
  },
  {
   "property": "C188",
   "status": "partial",
   "theorems": [
    "Verif.Org.c188_get_partial",
    "Verif.Org.c188_other",
    "Verif.Org.c188_id"
   ],
   "note": "Proved of identifiers without separator of which none continues another, and field names without separator, other than id, with text values. Other values raise after the data was changed (witness)."
  },
  {
   "property": "C189",
   "status": "partial",
   "theorems": [
    "Verif.Org.c189_list_partial",
    "Verif.Org.c189_dot",
    "Verif.Org.c189_id",
    "Verif.Org.c189_empty",
    "Verif.Org.c189_continued"
   ],
   "note": "Proved under the conditions of C188, of contacts that have a field. False without them: one field name with a dot makes every list raise; a field id lists a contact as another; removing an identifier removes the fields of those that continue it (witnesses)."
  },
  {
   "property": "C190",
   "status": "partial",
   "theorems": [
    "Verif.Org.c190_find_partial",
    "Verif.Org.c189_dot"
   ],
   "note": "Proved under the conditions of C188. find, with its patterns, is not modelled."
  },
  {
   "property": "C191",
   "status": "partial",
   "theorems": [
    "Verif.Org.c191_signed_partial",
    "Verif.Org.c191_swapped",
    "Verif.Org.c191_unsigned"
   ],
   "note": "Proved of get: the data was signed once. False: for that contact, and last (signatures cover neither identifier nor time); list, values and the choice of contacts by findExact read the index that is not signed (witnesses)."
  },
  {
   "property": "C192",
   "status": "partial",
   "theorems": [
    "Verif.Org.c192_cut_partial",
    "Verif.Org.c192_torn",
    "Verif.Org.c192_lost",
    "Verif.Org.c192_index"
   ],
   "note": "Proved: others unchanged, and the five things that can become of the contact. False that it is as before or after: it can be lost or raise at every get and update (witnesses)."
  },
  {
   "property": "C193",
   "status": "partial",
   "theorems": [
    "Verif.Org.c193_image_partial",
    "Verif.Org.c193_large",
    "Verif.Org.c193_continued"
   ],
   "note": "Proved of identifiers without separator and images below 4 GiB; larger ones raise after they are written (proved). Images of identifiers that continue this one are removed (witness)."
  },
  {
   "property": "C194",
   "status": "partial",
   "theorems": [
    "Verif.Watch.c194_duplicity",
    "Verif.Watch.c194_messages",
    "Verif.Watch.c194_earlier"
   ],
   "note": "Exact for contradiction at the number of the local key state and different digests of watchers ahead of it. Contradiction at earlier numbers is not looked for (proved)."
  },
  {
   "property": "C195",
   "status": "proved",
   "theorems": [
    "Verif.Watch.c195_update",
    "Verif.Watch.c195_others",
    "Verif.Watch.c195_silent",
    "Verif.Watch.c195_no_answer",
    "Verif.Watch.c195_threshold"
   ],
   "note": "Witnesses: nothing is reported if fewer than the threshold are ahead; no answer at all is reported as consistent."
  },
  {
   "property": "C196",
   "status": "partial",
   "theorems": [
    "Verif.Watch.c196_honest_partial",
    "Verif.Watch.c196_false_alarm",
    "Verif.Watch.c196_case"
   ],
   "note": "Proved if those that are ahead are at one number. Proved false otherwise: honest watchers ahead at two different numbers always cause an alarm."
  },
  {
   "property": "C197",
   "status": "partial",
   "theorems": [
    "Verif.Http.c197_roundtrip_partial",
    "Verif.Http.c197_same_index",
    "Verif.Http.c197_injection",
    "Verif.Http.c197_tag_is_field",
    "Verif.Http.c197_empty"
   ],
   "note": "Proved of signages with texts free of special characters and different tags. False otherwise: nothing is escaped, two signatures of one index become one, a tag can be read as a field, no signages give a header that cannot be read (witnesses)."
  },
  {
   "property": "C198",
   "status": "proved",
   "theorems": [
    "Verif.Http.c198_merge",
    "Verif.Http.c198_spaces",
    "Verif.Http.c198_count"
   ],
   "note": "Of any texts."
  },
  {
   "property": "C199",
   "status": "partial",
   "theorems": [
    "Verif.Http.c199_validate",
    "Verif.Http.c199_all_keys",
    "Verif.Http.c199_no_header",
    "Verif.Http.c199_other_kind"
   ],
   "note": "The condition under which a request is let through is exact: all current keys, no threshold. False that none raises: a missing header or another kind of signature raises (proved)."
  },
  {
   "property": "C200",
   "status": "partial",
   "theorems": [
    "Verif.Http.c200_partition",
    "Verif.Http.c200_messages_partial",
    "Verif.Http.c200_binary",
    "Verif.Http.c200_other_kind"
   ],
   "note": "Nothing is lost, of any stream; one request per message for JSON with text attachments. Binary attachments are cut at a byte, messages in CBOR are posted as attachments (witnesses)."
  },
  {
   "property": "C201",
   "status": "partial",
   "theorems": [
    "Verif.Http.c201_signed_partial",
    "Verif.Http.c201_line_ends",
    "Verif.Http.c201_skipped"
   ],
   "note": "Proved of values without line ends. Fields asked for that the request does not have are left out silently (proved)."
  },
  {
   "property": "C202",
   "status": "proved",
   "theorems": [
    "Verif.Http.c202_served"
   ],
   "note": "Decision of the request stated outright, over any state. What the messages say comes as input."
  },
  {
   "property": "C203",
   "status": "partial",
   "theorems": [
    "Verif.Note.c203_book",
    "Verif.Note.c203_order",
    "Verif.Note.c203_announced",
    "Verif.Note.c203_crash_add",
    "Verif.Note.c203_crash_rem"
   ],
   "note": "Proved over all histories of calls. False over crashes: a half made addition makes marking and removal raise, a half made removal makes reading raise for good (witnesses)."
  },
  {
   "property": "C204",
   "status": "partial",
   "theorems": [
    "Verif.Note.c204_tampered",
    "Verif.Note.c204_removed_silently"
   ],
   "note": "Proved of reading and marking. A tampered notice is removed with the answer that all is well (witness)."
  },
  {
   "property": "C205",
   "status": "partial",
   "theorems": [
    "Verif.Note.c205_page",
    "Verif.Note.c205_pages",
    "Verif.Note.c205_backwards"
   ],
   "note": "Proved of ranges that do not end before they start; those give everything from their start (proved)."
  },
  {
   "property": "C206",
   "status": "partial",
   "theorems": [
    "Verif.Note.c206_push",
    "Verif.Note.c206_delivered_partial",
    "Verif.Note.c206_notices",
    "Verif.Note.c206_no_topic"
   ],
   "note": "Proved of signals with a topic; one without loses itself and those before it (witness). All notices share one collapse key, so that only the last is announced (proved)."
  },
  {
   "property": "C207",
   "status": "partial",
   "theorems": [
    "Verif.Note.c207_round_partial",
    "Verif.Note.c207_only_old",
    "Verif.Note.c207_killed_by_push",
    "Verif.Note.c207_killed_by_collapse"
   ],
   "note": "Only old ones, over any interleaving. All old ones in an undisturbed round. A push during a round ends the expiry for good (proved)."
  },
  {
   "property": "C208",
   "status": "partial",
   "theorems": [
    "Verif.Agt.c208_shared",
    "Verif.Agt.c208_complete",
    "Verif.Agt.c208_introduced",
    "Verif.Agt.c208_catchup",
    "Verif.Agt.c208_delegated",
    "Verif.Agt.c208_no_endpoint"
   ],
   "note": "Proved of results and receipts. Added witnesses are brought up to date in rotations only, not in those of delegated identifiers (proved); one without an endpoint keeps the event from everybody (proved)."
  },
  {
   "property": "C209",
   "status": "partial",
   "theorems": [
    "Verif.Agt.c209_shared_partial",
    "Verif.Agt.c209_order"
   ],
   "note": "Proved to hold if and only if receipts are stored in the order of the witnesses; otherwise a witness is sent its own in the place of another's (witness)."
  },
  {
   "property": "C210",
   "status": "partial",
   "theorems": [
    "Verif.Agt.c210_http",
    "Verif.Agt.c210_http_order",
    "Verif.Agt.c210_tcp_partial",
    "Verif.Agt.c210_tcp_waiting"
   ],
   "note": "Exact for HTTP. Over TCP a messenger with messages waiting is idle (proved)."
  },
  {
   "property": "C211",
   "status": "partial",
   "theorems": [
    "Verif.Agt.c211_sent_partial",
    "Verif.Agt.c211_never_idle"
   ],
   "note": "Proved of events of own identifiers. One event of another makes the publisher not idle for ever (proved)."
  },
  {
   "property": "C212",
   "status": "partial",
   "theorems": [
    "Verif.Agt.c212_done",
    "Verif.Agt.c212_unknown",
    "Verif.Agt.c212_noticer",
    "Verif.Agt.c212_noticer_none"
   ],
   "note": "Proved of known identifiers. For unknown ones, queries by number or seal are not sent (proved)."
  },
  {
   "property": "C213",
   "status": "partial",
   "theorems": [
    "Verif.Ends.c213_authorised",
    "Verif.Ends.c213_url",
    "Verif.Ends.c213_urls",
    "Verif.Ends.c213_scheme_partial",
    "Verif.Ends.c213_http",
    "Verif.Ends.c213_roles",
    "Verif.Ends.c213_none"
   ],
   "note": "Proved for all histories. Asked for HTTP, URLs of HTTPS are given too (proved)."
  },
  {
   "property": "C214",
   "status": "partial",
   "theorems": [
    "Verif.Ends.c214_partial",
    "Verif.Ends.c214_witnesses",
    "Verif.Ends.c214_ends",
    "Verif.Ends.c214_cut"
   ],
   "note": "Proved of histories in which no role is cut. Fails otherwise: an endpoint that was cut is used still (proved)."
  },
  {
   "property": "C215",
   "status": "partial",
   "theorems": [
    "Verif.Ends.c215_unknown",
    "Verif.Ends.c215_log",
    "Verif.Ends.c215_authorised",
    "Verif.Ends.c215_locations",
    "Verif.Ends.c215_own",
    "Verif.Ends.c215_made",
    "Verif.Ends.c215_misattributed",
    "Verif.Ends.c215_all_roles"
   ],
   "note": "Proved of logs, authorisations and locations. Asked for the witnesses of another, a habitat signs that they are its own; asked for all roles it tells of no witnesses (proved)."
  },
  {
   "property": "C216",
   "status": "partial",
   "theorems": [
    "Verif.Ends.c216_authorised_partial",
    "Verif.Ends.c216_raises",
    "Verif.Ends.c216_witness"
   ],
   "note": "Proved when there is no exception; there is one when the log of an endpoint is not known (proved)."
  },
  {
   "property": "C217",
   "status": "partial",
   "theorems": [
    "Verif.Fwd.c217_reachable",
    "Verif.Fwd.c217_scheme",
    "Verif.Fwd.c217_direct",
    "Verif.Fwd.c217_relayed",
    "Verif.Fwd.c217_no_attachment",
    "Verif.Fwd.c217_transferable",
    "Verif.Fwd.c217_config"
   ],
   "note": "Proved of deliveries without exception. Messages without attachments cannot be relayed, nor any to transferable mailboxes; an endpoint without a URL keeps others from being sent to (proved)."
  },
  {
   "property": "C218",
   "status": "partial",
   "theorems": [
    "Verif.Fwd.c218_partial",
    "Verif.Fwd.c218_sent",
    "Verif.Fwd.c218_await",
    "Verif.Fwd.c218_stops",
    "Verif.Fwd.c218_witness",
    "Verif.Fwd.c218_nobody",
    "Verif.Fwd.c218_cut",
    "Verif.Fwd.c218_waits"
   ],
   "note": "Proved while no uncaught exception is raised. After one nothing is served; what is sent to nobody is not reported, and waiting for it does not end (proved)."
  },
  {
   "property": "C219",
   "status": "partial",
   "theorems": [
    "Verif.Fwd.c219_delivered_partial",
    "Verif.Fwd.c219_relayed",
    "Verif.Fwd.c219_queued",
    "Verif.Fwd.c219_oversize",
    "Verif.Fwd.c219_duplicates",
    "Verif.Fwd.c219_first_role",
    "Verif.Fwd.c219_tcp",
    "Verif.Fwd.c219_wrapped",
    "Verif.Fwd.c219_wrapped_witness",
    "Verif.Fwd.c219_no_attachment",
    "Verif.Fwd.c219_own_mailbox"
   ],
   "note": "Proved for one controller with HTTP and events that fit. Fails for larger ones in ESSR mode (no end), several chunks (messengers twice), several roles, TCP, and controllers who have mailboxes (proved)."
  },
  {
   "property": "C220",
   "status": "partial",
   "theorems": [
    "Verif.Fwd.c220_introduced",
    "Verif.Fwd.c220_always",
    "Verif.Fwd.c220_transferable"
   ],
   "note": "Proved that those who may not know it are introduced to. Receipts are never found, so everybody is; for transferable identifiers an exception is raised (proved)."
  },
  {
   "property": "C221",
   "status": "partial",
   "theorems": [
    "Verif.Ann.c221_undone_partial",
    "Verif.Ann.c221_interactions",
    "Verif.Ann.denot_render",
    "Verif.Ann.Demo.c221_threshold",
    "Verif.Ann.Demo.c221_alphabet"
   ],
   "note": "Proved for all native key events of the builders in the text domain and for every stream that announces an interaction. Of other streams it is false: thresholds are written anew, and `+` and `/` come back as `-` and `_` (proved)."
  },
  {
   "property": "C222",
   "status": "partial",
   "theorems": [
    "Verif.Ann.c222_ends_partial",
    "Verif.Ann.c222_hangs"
   ],
   "note": "Proved for streams that do not start in the binary domain. Those never end (proved of all of them)."
  },
  {
   "property": "C223",
   "status": "partial",
   "theorems": [
    "Verif.Ann.c223_alone",
    "Verif.Ann.c223_types",
    "Verif.Ann.c223_classes",
    "Verif.Ann.Demo.c223_count",
    "Verif.Ann.Demo.c223_reply"
   ],
   "note": "Proved that nothing may follow a message and that only five types are annotated. The counter in front is not compared with what follows (proved)."
  },
  {
   "property": "C224",
   "status": "partial",
   "theorems": [
    "Verif.Reg.c224_found_partial",
    "Verif.Reg.c224_name_taken",
    "Verif.Reg.c224_unknown",
    "Verif.Reg.c224_identifier_gone",
    "Verif.Reg.Demo.c224_second_lost"
   ],
   "note": "Proved for names not used before. A registry made under a name already used is not recorded and gone after a restart; a restart without the identifier of any one registry raises (both proved)."
  },
  {
   "property": "C225",
   "status": "partial",
   "theorems": [
    "Verif.Reg.c225_issued",
    "Verif.Reg.c225_revoked",
    "Verif.Reg.c225_sealed_partial",
    "Verif.Reg.c225_not_again",
    "Verif.Reg.c225_not_unissued"
   ],
   "note": "Digests are assumed free of collisions. Taking effect is proved when nothing else waits for the credential and no other seal was told before; what happens otherwise is in C60."
  },
  {
   "property": "C226",
   "status": "partial",
   "theorems": [
    "Verif.Reg.c226_rotated",
    "Verif.Reg.c226_accepted_partial",
    "Verif.Reg.c226_issued",
    "Verif.Reg.c226_no_backers",
    "Verif.Reg.c226_incepted",
    "Verif.Reg.Demo.c226_backers_after_restart",
    "Verif.Reg.Demo.c226_number_again"
   ],
   "note": "Acceptance is proved for registries in memory since they were made. After a restart signatures of backers are needed and rotations are forgotten (proved)."
  },
  {
   "property": "C227",
   "status": "partial",
   "theorems": [
    "Verif.Reg.c227_issue_partial",
    "Verif.Reg.c227_rotate_fails",
    "Verif.Reg.c227_revoke_fails",
    "Verif.Reg.c227_restarted",
    "Verif.Reg.Demo.c227_until_restart"
   ],
   "note": "Proved for issuing. Rotating and revoking always raise (proved for all states and events)."
  },
  {
   "property": "C228",
   "status": "partial",
   "theorems": [
    "Verif.Tsn.c228_saved_partial",
    "Verif.Tsn.c228_untrusted",
    "Verif.Tsn.c228_untrusted_credential",
    "Verif.Tsn.c228_own_backer",
    "Verif.Tsn.c228_own_registry",
    "Verif.Tsn.Demo.c228_not_controller",
    "Verif.Tsn.Demo.c228_not_issuer"
   ],
   "note": "Proved with the controller, backers and registry that the notice names. A source that names itself backer, or its own registry, is taken for any registry or credential (proved)."
  },
  {
   "property": "C229",
   "status": "partial",
   "theorems": [
    "Verif.Tsn.c229_registry_partial",
    "Verif.Tsn.c229_others",
    "Verif.Tsn.c229_last_saved",
    "Verif.Tsn.Demo.c229_goes_back"
   ],
   "note": "Proved for registries against the node's own state, and of other sources. A credential's older notice replaces a newer one (proved for all states; witness)."
  },
  {
   "property": "C230",
   "status": "partial",
   "theorems": [
    "Verif.Tsn.c230_left",
    "Verif.Tsn.c230_taken_partial",
    "Verif.Tsn.c230_told",
    "Verif.Tsn.c230_kept",
    "Verif.Tsn.c230_signatures",
    "Verif.Tsn.Demo.c230_given_up"
   ],
   "note": "Proved for notices not older than an hour; older ones are dropped though all is there (witness)."
  },
  {
   "property": "C231",
   "status": "partial",
   "theorems": [
    "Verif.Tsn.c231_asks_controller",
    "Verif.Tsn.c231_asks_registry",
    "Verif.Tsn.c231_asks_events",
    "Verif.Tsn.c231_asks_source",
    "Verif.Tsn.Demo.c231_not_controller"
   ],
   "note": "Proved but for a credential's notice with the registry's controller unknown: the source's key state is asked for (proved for all states)."
  },
  {
   "property": "C232",
   "status": "partial",
   "theorems": [
    "Verif.TelRep.c232_answered",
    "Verif.TelRep.c232_missing",
    "Verif.TelRep.c232_replayed_partial",
    "Verif.TelRep.c232_replayed_backed_partial",
    "Verif.TelRep.Demo.c232_wrong_seal_sent",
    "Verif.TelRep.Demo.c232_unbacked_sent",
    "Verif.TelRep.Demo.c232_foreign_revocation_lost"
   ],
   "note": "The answer is proved for all reached states. That it leads to the same logs is proved for registries never rotated, if the stored seals are in the receiver's key events and the stored signatures of backers are enough; it fails with a wrong seal stored, for own registries with backers and for credentials of two registries (witnesses). Not proved: rotated registries."
  },
  {
   "property": "C233",
   "status": "partial",
   "theorems": [
    "Verif.TelRep.c233_registry",
    "Verif.TelRep.c233_credential_never",
    "Verif.TelRep.Demo.c233_known_credential"
   ],
   "note": "Proved for registries. Queries that name a credential always raise after the registry's state (proved for all states)."
  },
  {
   "property": "C234",
   "status": "partial",
   "theorems": [
    "Verif.Web.c234_same_partial",
    "Verif.Web.c234_empty_key",
    "Verif.Web.Demo.c234_empty_value",
    "Verif.Web.Demo.c234_append_neighbour"
   ],
   "note": "Proved for all sequences of calls with keys and values that are not empty, as long as the database on disk raises nothing and numbers fit. It fails for empty keys, for empty values and beside keys without numbers. Sets in order of insertion are C236."
  },
  {
   "property": "C235",
   "status": "partial",
   "theorems": [
    "Verif.Web.c235_unpack",
    "Verif.Web.c235_flushed",
    "Verif.Web.c235_reopens",
    "Verif.Web.c235_kept_partial",
    "Verif.Web.c235_lost",
    "Verif.Web.c235_not_cleared",
    "Verif.Web.Demo.c235_lost_case",
    "Verif.Web.Demo.c235_not_cleared_case"
   ],
   "note": "A flush keeps what there was when it started, and stores can always be opened again. That unmarked stores are kept in full is proved if nothing changes during flushes; what does change then is lost, and clearing on close clears nothing that is kept (proved for all states)."
  },
  {
   "property": "C236",
   "status": "partial",
   "theorems": [
    "Verif.Web.c236_refines_partial",
    "Verif.Web.c236_same_partial",
    "Verif.Web.Demo.c236_nested_keys",
    "Verif.Web.Demo.c236_last_separator"
   ],
   "note": "Proved for all sequences of calls on keys none of which is another one followed by the separator and 0. For such keys values are lost (witness), other than on disk where they are refused. Sets at numbered keys are C239."
  },
  {
   "property": "C237",
   "status": "partial",
   "theorems": [
    "Verif.Conf.c237_last_partial",
    "Verif.Conf.c237_closed",
    "Verif.Conf.c237_during_last",
    "Verif.Conf.c237_failed_put",
    "Verif.Conf.c237_interrupted",
    "Verif.Conf.Demo.c237_failed_put_case",
    "Verif.Conf.Demo.c237_human_not_read"
   ],
   "note": "Proved for all sequences of puts that succeed. A put that raises empties the file, and every put goes through a state in which it is empty (both proved for all states)."
  },
  {
   "property": "C238",
   "status": "partial",
   "theorems": [
    "Verif.Sch.c238_addressed",
    "Verif.Sch.c238_one",
    "Verif.Sch.c238_made",
    "Verif.Sch.c238_resolved",
    "Verif.Sch.c238_found",
    "Verif.Sch.c238_agree",
    "Verif.Sch.c238_kind_set",
    "Verif.Sch.Demo.c238_changed",
    "Verif.Sch.Demo.c238_other_bytes",
    "Verif.Sch.Demo.c238_kind_set_case"
   ],
   "note": "Proved of loading, making and caches, but for texts with the same digest, of schemas without a field v at the top. Setting the kind exchanges content and kind and spoils the identifier (proved for all schemas)."
  },
  {
   "property": "C239",
   "status": "partial",
   "theorems": [
    "Verif.Web.c239_marked",
    "Verif.Web.c239_kept_partial",
    "Verif.Web.c239_append_same",
    "Verif.Web.c239_append_lost",
    "Verif.Web.c239_rem_lost",
    "Verif.Web.c239_mended",
    "Verif.Web.Demo.c239_changed",
    "Verif.Web.Demo.c239_half_append"
   ],
   "note": "Proved for all histories without appending sets and without removing them from a number on. These two change the store without marking it: what they did to a flushed store is not kept by any later flush until something else is changed (proved for all stores). An append that raises leaves some of its values in browsers and none on disk (witness)."
  },
  {
   "property": "C240",
   "status": "partial",
   "theorems": [
    "Verif.Db.c240_removed_partial",
    "Verif.Web.c240_same",
    "Verif.Db.c240_nested_keys"
   ],
   "note": "Proved for databases in which no key is another one followed by the separator, false otherwise (c240_nested_keys). That browsers do the same is proved for all databases and all keys that are not empty."
  },
  {
   "property": "C241",
   "status": "partial",
   "theorems": [
    "Verif.Web.c241_count_partial",
    "Verif.Web.c241_back_partial",
    "Verif.Web.c241_last_back_partial",
    "Verif.Web.c241_all_same",
    "Verif.Web.c241_missing",
    "Verif.Web.c241_nested_keys"
   ],
   "note": "Proved for databases in which no key is another one followed by the separator; for others forward and backward differ (c241_nested_keys). Without a key, proved to be as on disk for all databases."
  },
  {
   "property": "C242",
   "status": "partial",
   "theorems": [
    "Verif.Web.c242_last_partial",
    "Verif.Web.c242_same",
    "Verif.Web.c242_separator",
    "Verif.Web.c242_all_partial",
    "Verif.Web.c242_all_same"
   ],
   "note": "Proved for databases in which no key is another one followed by the separator, in browsers for every separator, on disk for the separator . only: with others nothing may be yielded (witness). Without a key, on disk and in browsers for every separator."
  },
  {
   "property": "C243",
   "status": "partial",
   "theorems": [
    "Verif.Web.c243_last_partial",
    "Verif.Web.c243_same",
    "Verif.Web.Demo.c243_nested_keys",
    "Verif.Web.Demo.c243_separator"
   ],
   "note": "Proved for databases in which no key is another one followed by the separator; others are yielded more than once (witness). On disk, from a key on, only for the separator . (witness)."
  },
  {
   "property": "C244",
   "status": "partial",
   "theorems": [
    "Verif.Web.c244_reads_partial",
    "Verif.Web.c244_kept_partial",
    "Verif.Web.c244_closed",
    "Verif.Web.Demo.c244_lost",
    "Verif.Web.Demo.c244_stale"
   ],
   "note": "Proved for all histories of setting, reading and flushing of an open database, the keeping if no version is set while a flush is under way. False after closing (proved for all states), while a flush is under way and if the store is emptied through its handle (witnesses)."
  }
 ]
}