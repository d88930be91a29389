"""Regenerates MANIFEST.json from the table below."""
import json, os
M = []
def c(prop, status, theorems, note=""):
    M.append({"property": prop, "status": status, "theorems": theorems, "note": note})

B = "Verif.B64."
T = "Verif.Matter."
c("C01", "proved", [B+x for x in ("c01_int_roundtrip", "c01_int_width_zero", "c01_text_roundtrip", "c01_text_refused", "c01_alphabet")])
c("C02", "proved", [B+x for x in ("c02_b64_to_b2", "c02_b2_to_b64", "c02_b2_short", "c02_code_roundtrip", "c02_nab_sextets")])
c("C03", "partial", [T+x for x in ("c03_text_roundtrip", "c03_make_keeps", "c03_special_roundtrip_partial", "c03_special_no_text_form")],
  "Proved outright for Matter(raw, code, soft, rize). For Matter(code, soft) without raw the statement is false of the code when the code needs raw bytes (c03_special_no_text_form); proved for codes without raw part.")
c("C04", "proved", [T+"c04_binary_roundtrip"])
c("C05", "proved", [T+"c05_aligned", T+"c05_composable"])
c("C06", "proved", [T+"c06_self_framing", T+"c06_self_framing_binary", T+"c06_stream"])
c("C07", "partial", [T+"c07_text_prefix_partial", T+"c07_text_not_shortage", T+"c07_binary_prefix"],
  "A prefix never parses, text or binary, and binary prefixes always ask for more. In text a cut exactly after the hard code of size-carrying or padded codes raises another error (c07_text_not_shortage).")
c("C08", "partial", [T+"c08_canonical_partial", T+"c08_unique_partial", T+"c08_malleable", T+"c08_binary_unique"],
  "False of the text parser: '+' and '/' are accepted for '-' and '_' (c08_malleable). Proved up to that respelling, and outright in the binary domain.")
c("C09", "proved", [T+"c09_variable_size", T+"c09_rize"])

H = "Verif.Thold."
c("C10", "proved", [H+"c10_numeric", H+"c10_zero_never"])
c("C11", "proved", [H+"c11_weighted", H+"c11_all_sign"])
c("C12", "partial", [H+"c12_monotone_partial", H+"c12_numeric_append", H+"c12_not_monotone"],
  "False for weighted thresholds when a signature of a key beyond the last weight is added (c12_not_monotone). Proved for positions of the threshold.")
c("C13", "partial", [H+"c13_set_only_partial", H+"c13_numeric_repeats"],
  "False for numeric thresholds, which count list entries (c13_numeric_repeats). Proved for weighted thresholds and for duplicate-free lists.")
c("C14", "proved", [H+x for x in ("c14_sith_roundtrip", "c14_limen_roundtrip", "c14_numeric_roundtrip", "c14_same_satisfaction", "c14_sith_wellFormed", "c14_no_clauses", "c14_above_one")],
  "Well-formed means: at least one clause, sums reach one, weights in [0,1]; c14_sith_wellFormed shows everything read from text is. c14_no_clauses and c14_above_one show why the bounds are needed for thold=.")
c("C15", "proved", [H+"c15_ample", H+"c15_ample_fault", H+"c15_quorums_intersect", H+"c15_ample_choice"])
c("C44", "proved", [T+"c44_bexter_roundtrip", T+"c44_bexter_refuses", T+"c44_no_escape_loses"])
c("C45", "proved", [T+"c45_number_roundtrip", T+"c45_number_auto"])
c("C46", "partial", [T+"c46_decimer_roundtrip_partial", T+"c46_exponent_sign_flips"],
  "False for floats printed with an exponent sign: 1e+16 reads back as 1e-16 (c46_exponent_sign_flips). Proved for texts without '+'.")
c("C47", "proved", [T+"c47_dater_roundtrip", T+"c47_dater_short"])

K = "Verif.Kel."
c("C16", "partial", [K+"c16_chain_nondelegated", K+"c16_chain_partial", K+"c16_chain_broken"],
  "Proved for histories without drt events, and for all histories as long as no event was first-seen twice. False in general: a drt that is replayed or supersedes another drt leaves the key event log without a digest-linked chain (c16_chain_broken).")
c("C17", "proved", [K+"c17_one_step", K+"c17_append_only", K+"c17_ordinals"])
c("C18", "proved", [K+"c18_once", K+"c18_twice_with_drt"],
  "The statement excludes drt events; c18_twice_with_drt shows why.")
c("C19", "proved", [K+"c19_signing_threshold"])
c("C20", "partial", [K+"c20_current_state", K+"c20_prerotation_partial", K+"c20_superseding_drt"],
  "At the moment of acceptance the current key state's commitments are exposed (all histories); against the predecessor in the log proved for histories without drt events; false for a drt that supersedes a drt (c20_superseding_drt).")
c("C21", "partial", [K+"c21_witness_threshold_partial", K+"c21_distinct_witnesses_partial", K+"c21_one_witness_counts_twice"],
  "Enough different valid receipts by witnesses in force; from different witnesses only if receipts have different positions, false otherwise (c21_one_witness_counts_twice).")
c("C22", "partial", [K+"c22_nodup", K+"c22_rotation_partial", K+"c22_other", K+"c22_recovery_ignores_cuts"],
  "Proved for inceptions, interactions and rotations extending the log. False for recovery rotations, whose cuts and adds are ignored (c22_recovery_ignores_cuts).")
c("C23", "proved", [K+"c23_refused", K+"c23_changed"])
c("C24", "partial", [K+"c24_update", K+"c24_recovery_partial", K+"c24_est_permanent_partial", K+"c24_rotation_superseded"],
  "Proved for histories without drt events. False with them: a drt event on a non-delegated identifier supersedes a rotation (c24_rotation_superseded).")
c("C27", "partial", [K+"c27_replay_partial", K+"c27_replay_accepted"],
  "Proved for histories without drt events; a drt is accepted a second time (c27_replay_accepted).")
c("C28", "partial", [K+"c28_first_seen_wins_partial", K+"c28_not_recorded"],
  "First-seen-wins is proved for histories without drt events; the recording half is false, the escrow call raises before recording (c28_not_recorded).")
c("C25", "proved", [K+"c25_frozen"])
c("C26", "proved", [K+"c26_est_only"])
c("C29", "proved", [K+"c29_anchor", K+"c29_superseding", K+"c29_delegable", K+"c29_superseded_anchor"],
  "The anchor is in the delegator's first-seen log; after a recovery of the delegator a superseded event's seal still counts (c29_superseded_anchor).")
c("C30", "partial", [K+"c30_remote_partial", K+"c30_history_partial", K+"c30_laundered"],
  "Proved for the processing of a remote message itself, and over whole histories as long as no other event is accepted at the number of the remote event. False over all histories: a remote event refused as likely duplicitous has its source recorded as local, and a later escrow pass then accepts it as local (c30_laundered).")
c("C31", "partial", [K+"c31_order_partial", K+"c31_prefix_partial", K+"c31_any_history_partial", K+"c31_pieces_partial"],
  "Proved for logs of one identifier without delegation and recovery. Safety over any history whatever (any signatures, sources, passes of any escrow, time-outs, receipts, approvals): the logs are always those of a prefix of the log delivered in order. Convergence for any order, repetition and interleaving with passes of any escrow, with signatures and witness signatures spread over messages and receipts, each message carrying at least one verifying signature. Missing: delegated logs, recovery.")
c("C32", "partial", [K+"c32_stored", K+"c32_reprocess_partial", K+"c32_first_seen_twice", K+"c32_crash_replaced"],
  "Bodies and signatures of logged events are present after a crash at any write. Reprocessing a non-delegated event gives the same key event log, bodies and key state up to the first-seen number. False for the first-seen log: a crash between its write and the key state's leads to a second entry (c32_first_seen_twice), and a different event can take the place of the first seen one (c32_crash_replaced).")
c("C33", "partial", [K+"c33_stored_verify_partial", K+"c33_unverified_kept"],
  "False in general: signatures stored unverified by an escrow remain after acceptance (c33_unverified_kept). Proved for histories in which unverified signatures are not escrowed for the event.")
c("C35", "proved", [K+"c35_lookup", K+"c35_authority"])
c("C48", "proved", [K+"c48_key_state"])
c("C49", "partial", [K+"c49_distinct_positions_partial", K+"c49_one_key_counts_twice"],
  "False in general: one key's signature attached under two codes counts twice. Proved when stored signatures have different positions.")
c("C50", "proved", [T+"c50_sizes", T+"c50_all_documented"])
c("C51", "partial", [K+"c51_inception", K+"c51_interaction", K+"c51_rotation_partial", K+"c51_cuts_in_order", K+"c51_cuts_refused"], "Proved but for rotations that name the witnesses to be removed in another order than that of the list: those are never accepted (proved), since equality of ordered sets minds the order.")

D = "Verif.Db."
c("C36", "proved", [D+x for x in ("c36_order", "c36_split", "c36_injective", "c36_width", "c36_overflow")],
  "For ordinals up to MaxON, the documented range; beyond it the order breaks (c36_overflow).")
c("C40", "proved", [D+"c40_iter", D+"c40_remove", D+"c40_kept"])
c("C37", "partial", [D+"c37_refines_partial", D+"c37_spec_local", D+"c37_numbered", D+"c37_nested_keys"],
  "Refinement to abstract ordered sets for every sequence of operations on keys none of which is another one followed by the separator and 32 hex digits; false without that (c37_nested_keys).")
c("C38", "partial", [D+x for x in ("c38_append_partial", "c38_read", "c38_write", "c38_remove_all", "c38_history_partial", "c38_nested_keys", "c38_empty_item", "c38_item", "c38_append_set_partial", "c38_append_repeats")],
  "Proved for databases in which no other key is the appended one followed by the separator and 32 hex digits; false otherwise (c38_nested_keys).")
c("C39", "partial", [D+x for x in ("c39_refines_partial", "c39_repeated", "c39_dot_key", "c39_numbered_put")],
  "Refinement to abstract ordered sets when no single put names a value twice and keys do not begin with a dot. False otherwise (c39_repeated, c39_dot_key), and for puts at numbered keys (c39_numbered_put).")
c("C41", "partial", [D+x for x in ("c41_back_partial", "c41_last_back_partial", "c41_missing_raises", "c41_dup_back_partial", "c41_dup_starts_above", "c41_last_forward", "c41_last_forward_sep")],
  "Proved when the key and number are in use. False for missing ones: the iteration raises (c41_missing_raises); with duplicates it can start above the number asked for (c41_dup_starts_above). The forward iteration over last duplicates is exact with the default separator and endless with another (c41_last_forward_sep).")
c("C52", "proved", [D+"c52_map", D+"c52_empty_key"])

Y = "Verif.Rpy."
c("C42", "proved", [Y+x for x in ("c42_authority", "c42_history", "c42_records", "c42_notice", "c42_refused", "c42_parts_add_up", "c42_shared_notice", "c43_later_accepted", "c43_later_group_accepted")],
  "Authority is proved for every reply, state and history. What is recorded is the last accepted reply's content for endpoint roles, locations and watched identifiers; key states are kept by event digest, so a notice of one source replaces another's (c42_shared_notice). Replies of registries and oobis are not modelled; one key can count twice towards a numeric threshold (see C49).")
c("C43", "partial", [Y+x for x in ("c43_couples_partial", "c43_groups_partial", "c43_groups_ordered", "c43_later_accepted", "c43_later_group_accepted", "c43_old_keys_lower_bar", "c43_clean_up_raises", "c43_escrow_erases", "c43_notice_goes_back", "c43_notice_erases")],
  "Proved for endpoint roles, locations and watched identifiers: sources endorsing with couples, and sources each of whose replies is endorsed under one establishment event and is not timed out in escrow. False otherwise, with witnesses: re-endorsement under older keys, the clean up that raises, escrow time-outs, key state notices.")

X = "Verif.Rct."
Z = "Verif.Rct.DemoRct."
c("C34", "partial", [X+x for x in ("c34_couples", "c34_witness_signatures", "c34_groups_some", "c34_groups_partial", "c34_last_partial", "c34_kept", "c34_key_events", "c34_good_stored", "c34_good_group_stored", "c34_good_attached_stored")] + [Z+x for x in ("c34_misfiled", "c34_superseded", "c34_duplicitous", "c34_unknown_raises", "c34_index_shifted", "c34_attached_witness")],
  "Couples: every stored one verifies over exactly its event, in every history. Group signatures: proved when receipt messages name the last event at their number, false otherwise (c34_misfiled: filed under the superseding event). Receipts are also stored for superseded and for never accepted events (c34_superseded, c34_duplicitous); a witness index can refer to the wrong list (c34_index_shifted).")
c("C53", "partial", [X+"c53_own_receipts_partial", Z+"c53_through_escrow"],
  "Proved for receipts as they arrive; false for receipts that wait in escrow, where the test is not repeated (c53_through_escrow).")
c("C54", "partial", [X+x for x in ("c54_waits", "c54_patient", "c54_couple_stored", "c54_group_stored", "c54_witness_stored_partial", "c54_witness_never_stored")] + [Z+"c54_witness_receipt_lost"],
  "Proved for couples and groups. Indexed witness signatures are only matched with events waiting for witness signatures, so one that precedes an event accepted at once is lost (c54_witness_never_stored, c54_witness_receipt_lost).")

L = "Verif.Tel."
Q = "Verif.Tel.DemoTel."
c("C55", "proved", [L+x for x in ("c55_entries_sealed", "c55_one_issuer", "c55_unsealed_refused", "c55_registries")] + [Q+"c55_superseded_seal"],
  "Accepted means first seen: a seal in an event that a recovery has since superseded counts too (c55_superseded_seal).")
c("C56", "proved", [L+x for x in ("c56_append_only", "c56_revoked_forever", "c56_reported")],
  "Reports are characterised for identifiers that are not registries. The reported source seal is the stored one, which need not be the one checked (c60_wrong_seal_reported).")
c("C57", "partial", [L+"c57_one_issuer_partial", Q+"c57_foreign_revocation", Q+"c57_foreign_issuance"],
  "False: the log of a credential is shared by all registries, so the controller of any registry can revoke the credential or occupy it. Proved when all events delivered for the credential name one registry.")
c("C58", "partial", [L+x for x in ("c58_gapless", "c58_kinds", "c58_registry_chain_partial")] + [Q+"c58_forked_after_restart", Q+"c58_squatted"],
  "Numbering, kinds and links of revocations proved for all histories. Links of registry rotations proved without restarts and without credential events for registry identifiers; false otherwise, with witnesses.")
c("C59", "partial", [L+x for x in ("c59_back_to_inception", "c59_unrotated_partial", "c59_backerless")] + [Q+"c59_rotation_forgotten"],
  "The stored state is written at inception only: exact result of a restart proved for all histories; unchanged state for registries not rotated, in particular those without backers; false after a rotation.")
c("C60", "partial", [L+"c60_waits", L+"c60_accepted_partial"] + [Q+x for x in ("c60_wrong_seal_sticks", "c60_wrong_seal_reported", "c60_sibling_dropped", "c60_backers_never", "c60_own_dropped")],
  "Proved for credential events of registries without backers when nothing else waits for the same credential. False otherwise, with witnesses.")
c("C61", "partial", [L+"c61_backed_partial", Q+"c61_one_backer_twice", Q+"c61_backers_bypassed"],
  "Proved with signatures counted instead of backers, and for credential events with the threshold stored for the registry event they refer to. False as stated: one backer can count twice; the event referred to need not have been accepted.")
c("C62", "partial", [L+"c62_source", L+"c62_own_partial", Q+"c62_own_credential_revoked"],
  "Proved for events that name the own registry. False for credentials issued in it: an event that names another registry is entered in their logs.")

F = "Verif.Vry."
G = "Verif.Vry.DemoVry."
c("C63", "proved", [F+x for x in ("c63_accepted_iff", "c63_effect", "c63_saved", "c63_kept")], "Digests of credentials are assumed free of collisions; whether a credential fits a schema and whether an event is too old are parameters.")
c("C64", "proved", [F+"c64_ranked", F+"c64_wellFounded"], "")
c("C65", "partial", [F+"c65_issued_partial", F+"c65_sealed", G+"c65_foreign_registry", G+"c65_foreign_event"],
  "False as stated: the issuer named by a credential is not compared with the issuer of its registry, and the log of a credential may hold events of another registry. Proved under those two conditions.")
c("C66", "partial", [F+"c66_revoked_edge_partial", G+"c66_revoked_accepted"], "Proved for credentials with an edge to the revoked one. False for the revoked credential itself, which is saved.")
c("C67", "proved", [F+"c67_saved", F+"c67_not_lost", F+"c67_arrival"], "Not dropped means: not timed out, and nothing wrong for good (schema mismatch, malformed or unsupported edge, revoked far end).")
c("C68", "proved", [F+"c68_indices"], "")
c("C69", "partial", [F+"c69_anchor_delivered_partial", G+"c69_anchor_replaced"], "False as stated: the anchor is stored unchecked and replaced by later deliveries. Proved: it is one that came with the very credential.")

N = "Verif.Mgr."
R = "Verif.Mgr.DemoMgr."
c("C70", "partial", [N+"c70_revealed_partial", R+"c70_skips"], "Proved for all histories as long as no call for the identifier itself was interrupted or refused midway since it was told. False after an interrupted rotation: the keys committed to can be passed over (c70_skips).")
c("C71", "partial", [N+"c71_sign_partial", N+"c71_rotate_partial", N+"c71_rotate_calm_partial", R+"c71_code_stuck", R+"c71_ingest_end", R+"c72_erased"],
  "Proved if encryption is used as meant, keys that cannot be encrypted are not asked for, no key is stored twice and ingestion starts at a given set; interruptions of inceptions, rotations and replays allowed. False without these conditions.")
c("C72", "partial", [N+"c72_one_identifier", N+"c72_across_partial", R+"c72_same_path", R+"c72_shared"],
  "Proved within one identifier for all histories, and across identifiers with the same number of digits. False across identifiers: paths have no separators.")
c("C73", "partial", [N+"c73_erased_partial", R+"c73_kept_once"], "Proved for runs without interruptions that always erase. A rotation without erasure leaves keys that later ones do not erase.")
c("C74", "partial", [N+"c74_at_rest_partial", N+"c74_wrong_seed", N+"c74_right_seed_partial"] + [R+x for x in ("c74_ingest_plain", "c74_later_plain", "c74_refused_used", "c74_same_unchecked", "c74_seed_alone")],
  "Proved if encryption is set up before the first keys and changed with fitting seeds, and nothing is ingested while encrypted. False otherwise.")
c("C75", "partial", [N+"c75_rotate_partial", N+"c71_sign_partial", N+"c71_rotate_partial"] + [R+x for x in ("c75_incept_blocked", "c75_rotate_blocked", "c75_move_stuck", "c75_update_mixed", "c75_salt_lost")],
  "Proved: other identifiers are not harmed by interrupted inceptions, rotations and replays; after an interrupted rotation the keys in use are the old or the new ones and can sign. False: further rotations, inceptions, moves and changes of encryption can be blocked or lose keys.")
c("C76", "proved", [N+"c76_sign"], "Signing by public keys, indexed; indices are integers in the model.")
c("C77", "partial", [N+"c77_replayed_partial"], "Missing: encrypted key stores (false there, see C74) and starting positions past the given sets (see C71).")

I = "Verif.Idr."
J = "Verif.Ctr."
c("C78", "proved", [I+x for x in ("c78_text", "c78_binary", "c78_aligned", "c78_test_codes")], "The test codes of Indexer, which are no signatures, lack it (c78_test_codes).")
c("C79", "proved", [I+x for x in ("c79_self_framing", "c79_self_framing_binary", "c79_stream", "c79_text_prefix", "c79_binary_prefix", "c79_unique")], "")
c("C80", "proved", [I+x for x in ("c80_accepts", "c80_parsed", "c80_signed", "c80_signed_roundtrip")], "The bytes of the signature are a parameter.")
c("C81", "partial", [J+x for x in ("c81_text", "c81_binary", "c81_aligned", "c81_unique", "c81_prefix", "c81_prefix_binary", "c81_promotion_partial", "c81_long", "c81_v2_long_forms", "c81_v1_key_error")],
  "All proved, except the last sentence in version 1: there most codes have no long form, and a count above 4095 raises KeyError (c81_v1_key_error).")
c("C82", "proved", [J+x for x in ("c82_text", "c82_binary", "c82_composable", "c82_accepts", "c82_nested", "c82_streams")], "")
c("C83", "proved", [J+x for x in ("c83_version", "c83_refused", "c83_injective")], "")

O = "Verif.Prs."
c("C84", "partial", [O+x for x in ("c84_roundtrip", "c84_smelled", "c84_parsed", "c84_smell_local", "c84_oversize")],
  "All proved, except that arguments which do not fit are not refused: the size of a message of 16 MiB or more overflows its field and no reader recognizes the version string (c84_oversize).")

H = " The decoding of bodies is a parameter; arguments without a reading in the parser (seals of last events, digests, roots and backers as bonds; inner signature groups above 4095 quadlets) are excluded."
c("C85", "partial", [O+x for x in ("c85_message_roundtrip", "DemoGeneric.c85_bare_dropped", "DemoGeneric.c85_second_group")], "All proved for the supported arguments." + H)
c("C86", "partial", [O+x for x in ("c86_stream_roundtrip", "DemoGeneric.c86_truncated")], "All proved for the supported arguments." + H)
c("C87", "partial", [O+x for x in ("c87_pieces", "DemoGeneric.c87_after_group")], "All proved for messages that tell where they end (attachments enclosed, or none); messages with attachments one after the other cannot be told from their beginnings." + H)
c("C88", "partial", [O+x for x in ("c88_failures_stay_inside", "DemoGeneric.c88_livelock", "DemoGeneric.c88_flush")], "Proved for groups of at least eight bytes on streams that are not framed; shorter ones wait for more. Outside of generic groups the claim is false (c88_livelock, c88_flush).")
c("C89", "proved", [O+"c89_text_or_binary"], "The decoding of bodies is a parameter.")
c("C90", "proved", [O+"c90_generic_transparent"], "For the messages of C85.")

Q = "Verif.Krm."
S2 = "Verif.Krm.Demo."
c("C91", "partial", [Q+x for x in ("c91_single_partial", "c91_multi_partial", "c91_unsealed_partial", "c91_begin_partial", "c91_exchange_partial")] +
  [S2+x for x in ("c91_multi_replayed", "c91_seal_replayed", "c91_ahead_replayed", "c91_late_replayed")],
  "Proved for senders with one key; for senders with several keys if no signatures wait and there are no seals or they are kept as long as signatures; for messages of exchanges if they do not arrive before their time stamp and exchanges are kept equally long. False without these conditions (the four witnesses).")
c("C92", "proved", [Q+"c92_authentic", Q+"c92_distinct"], "Verification of signatures and the key event logs are parameters; a number as threshold counts signatures with different codes separately.")
c("C93", "proved", [Q+"c93_timely"], "")
c("C94", "partial", [Q+"c94_narrow_partial"] + [S2+x for x in ("c94_widened", "c94_removed", "c94_restarted", "c94_taken_back", "c94_stuck")],
  "Proved for settings that only become narrower. False otherwise (the five witnesses).")
c("C95", "proved", [Q+x for x in ("c95_coverage", "c95_refused", "c95_holes")], "")
c("C97", "proved", [O+x for x in ("c97_parse", "c97_pieces", "c97_cold")], "The decoding of bodies is a parameter.")
c("C96", "proved", [Q+x for x in ("c96_messages", "c96_exchanges", "c96_waiting")], "")
c("C98", "partial", [Q+x for x in ("c98_at_once", "c98_takes_effect_partial", "c98_refused", "c98_restart")] + [S2+x for x in ("c98_drift_kept", "c98_left_over", "c94_taken_back", "c94_stuck")],
  "Proved for a change that is not followed by another before it takes effect, and for all but the drift of cache types that were there before. The rest is false (the witnesses).")
c("C99", "proved", [Q+x for x in ("c99_at_once", "c99_begin", "c99_follow", "c99_gathered", "c99_exempt")], "Shown by what comes with it means: the last seal is in the event it points to, or the signatures are good; of several seals only the last counts. Settings are without waiting changes at the time of delivery.")
c("C100", "partial", [Q+"c100_attached_partial", S2+"c100_sealed_unchecked"], "Proved for messages without seals of the sender whose sender is no key. With a seal the signatures are handed on unchecked (witness).")

X = "Verif.Exc."
XD = "Verif.Exc.Demo."
c("C101", "proved", [X+"c101_saved", X+"c101_waiting", XD+"c101_old_key", XD+"c101_first_key"],
  "Any event of the sender that is known will do, also one whose keys have been replaced; a sender that is the name of its first key can always sign with it (the witnesses).")
c("C102", "partial", [X+x for x in ("c102_handled", "c102_saved", "c102_veto", "c102_once1", "c102_once2")] + [XD+"c102_twice"],
  "That nothing is given twice is proved of answers in the issuance and presentation exchange; messages that open something are handled again when they come again (witness).")
c("C103", "partial", [X+"c103_thread2", X+"c103_thread1_partial", XD+"c103_foreign_route", XD+"c103_spurned_grant"],
  "Proved of the second version of the handler; of the first if no message of another route ends in a verb of the protocol, and false without that (witness). The versions differ in whether a grant can be spurned.")
c("C104", "proved", [X+"c104_one2", X+"c104_one1", XD+"c104_stranger", XD+"c104_blocked"],
  "Not claimed: that the answer is of someone in the conversation, or that the one who was asked can answer (witnesses).")
c("C105", "partial", [X+"c105_gather_partial", XD+"c105_poisoned"],
  "Proved if all deliveries name the same event of the sender, whose keys are known, and nothing else is wanting; false otherwise (witness).")
c("C106", "proved", [X+"c106_timeout", XD+"c106_kept"], "Only the message is dropped; its signatures are kept.")
c("C107", "proved", [X+"c107_essr", XD+"c107_lost"], "Digests of attachments are a parameter. Not claimed: that such a message arrives (witness).")
c("C108", "partial", [X+"c108_again_partial", X+"c108_gathered_partial"] + [XD+x for x in ("c108_unreadable", "c108_no_answer", "c108_replaced")],
  "Proved if every group that came with it is enough, or all came for the same event and are enough together. False otherwise: anyone can make a saved message unreadable (witnesses).")

Y = "Verif.Mbx."
YD = "Verif.Mbx.Demo."
c("C109", "partial", [Y+x for x in ("c109_stored_partial", "c109_read_partial", "c109_whole_partial")] + [YD+x for x in ("c109_jammed", "c109_hidden", "c109_reused", "c109_gap")],
  "Proved for mailbox keys of which none is another followed by a dot, with digests of messages injective; interrupted stores leave gaps and messages that are not text make reading fail, both stated exactly. False of nested topics: one forwarded message stops a topic for good (witnesses).")
c("C110", "partial", [Y+"c110_none_skipped_partial", Y+"c110_delivered_partial", YD+"c110_lost", YD+"c110_poisoned"],
  "Handed on to the queue of the client; one that dies loses what is in it, and one message that is not text stops all topics (witnesses).")
c("C111", "partial", [Y+"c111_exact_partial", YD+"c111_twice_gap", YD+"c111_twice_crash"],
  "Proved while neither side dies and no message is empty; otherwise messages can be handed on twice (witnesses).")
c("C112", "partial", [Y+"c112_own_partial", Y+"c112_address", Y+"c112_others_partial", YD+"c112_anyone"],
  "Proved for mailbox keys of which none is another followed by a dot. That only the owner can read is false: queries are answered whoever asks (witness).")
c("C113", "partial", [Y+x for x in ("c113_own", "c113_kept", "c113_found_partial", "c113_starved")],
  "That every request gets its stream is proved of one that is asked alone, and false of several: two can pass each other their cues for ever (witness).")
c("C114", "proved", [X+"c114_nested"], "Of the second version of the handler; the first does not look at nested messages.")
c("C115", "proved", [X+"c115_asked"], "")
MA, MD = "Verif.Mad.", "Verif.Mad.Demo."
c("C116", "partial", [MA+x for x in ("c116_enough", "c116_truncated", "c116_text_partial", "c116_binary_partial", "c116_base64_partial", "c116_injective_partial")] + [MD+x for x in ("c116_counterexamples", "c116_lenient", "c116_not_base64")],
  "Proved except for texts that are a primitive spelled with + or / and numbers printed with +, for which it is false: 1e+16 is read as 1e-16 (witness). The printed forms of numbers and UTF-8 are parameters.")
c("C117", "partial", [MA+x for x in ("c117_made_verifies", "c117_others_kept", "c117_code", "c117_serialized", "c117_checked", "c117_idempotent", "c117_received_partial")],
  "That it verifies when received is proved of the native serialization, with the exceptions of C116; the rest is proved without restriction.")
c("C118", "partial", [MA+x for x in ("c118_commits_partial", "c118_commits_other", "c118_determines_partial")] + [MD+x for x in ("c118_counterexample", "c118_other_saids")],
  "Proved with the exceptions of C116, and for maps with one SAID field or up to the SAID fields; false of the exceptions and of the codes of other SAID fields (witnesses).")

c("C119", "partial", [MA+x for x in ("c119_compacts_partial", "c119_compact_verifies_partial")] + [MD+"c119_counterexamples"],
  "Proved of maps whose labels have no dot and which have the first SAID field if they have any; without these compaction need not end (witnesses).")
c("C120", "partial", [MA+x for x in ("c120_disclosures_partial", "c120_hidden_partial")],
  "Proved of the maps of C119. The SAIDs stated in nested maps do not matter either: they are replaced, not checked.")
c("C121", "partial", [MA+x for x in ("c121_agree_partial", "c121_agree_other_partial")] + [MD+"c121_counterexample"],
  "Proved of maps as in C119 at every level, with the exceptions of C116 for the native serialization and for injective dumps of the other kinds; false of nested maps with a SAID field but not the first (witness).")

c("C122", "partial", [MA+x for x in ("c122_made_verifies", "c122_kept", "c122_disclosure_partial", "c122_selective_partial", "c122_checked")] + [MD+x for x in ("c122_counterexample", "c122_lenient")],
  "Proved of aggregates made with the strict rule for labels, since verifyDisclosure always applies it; of the other kinds for elements with the first SAID field, without which it is false (witnesses).")
c("C123", "partial", [MA+x for x in ("c123_commits_partial", "c123_commits_other_partial", "c123_same_map")] + [MD+"c122_counterexample"],
  "Proved with the exceptions of C116 for the native serialization, and for injective dumps and elements with the first SAID field for the other kinds; false without that field (witness). Maps agree up to the other SAID fields; with one such field they are the same.")
c("C124", "partial", [MA+x for x in ("c124_received_partial", "c124_made_partial", "c124_checked")],
  "Proved of the native serialization in text, with the exceptions of C116.")

SE = "Verif.Ser."
c("C125", "proved", [SE+x for x in ("c125_made_verifies", "c125_made_json", "c125_made_accepted")],
  "For JSON without assumptions on the serialization; for MessagePack, CBOR and native CESR given that the length does not depend on which texts of a given length are in the fields, or that the version string is not among them. Digest codes that are asked for are those of digests. The size is one that the version string has room for.")
c("C126", "proved", [SE+x for x in ("c126_commits_json", "c126_determines", "c126_commits", "c126_commits_native")] + ["Verif.Ser.Demo.c126_said_not_all"],
  "For JSON without assumptions on the serialization; for the other kinds given a reader that reads what is written. That the codes must be the same is needed (witness).")
c("C127", "proved", [SE+"c127_fields"], "For the classes Serder and SerderKERI.")
c("C128", "proved", [SE+"c128_prefix"], "Query, reply, prod, bare and exchange messages of version 1.0 have no prefix to check.")
c("C129", "partial", [SE+x for x in ("c129_accepted_right", "c129_stream", "c129_read_back", "c129_made_read_back")],
  "Given a reader that reads what is written and gives nothing else. That a message is found on the stream is proved of JSON; native CESR messages are read given their version.")
HB = "Verif.Hab."
c("C130", "partial", [HB+"c130_sync_partial", HB+"DemoHab.c130_short_weights"], "False of rotations and inceptions with fewer weights than keys (witness given); proved for all other calls. Given that keys made are new, digests of events do not collide, and keys made can be encrypted if the key store is.")
c("C131", "partial", [HB+"c131_result_partial", HB+"DemoHab.c131_short_weights"], "False with fewer weights than keys (witness given); proved for all other calls.")
c("C132", "partial", [HB+x for x in ("c132_rotate", "c132_interact", "c132_make", "c132_content")], "With fewer weights than keys excluded; given that keys, added witnesses and digests can be used as such.")
c("C133", "proved", [HB+"c133_default", HB+"c133_clear"], "After a refused rotation it may fail, see C134.")
c("C134", "proved", [HB+"c134_refused", HB+"c134_stash", HB+"DemoHab.c134_stash_default"], "The last theorem is a history in which the keys left behind by a refused rotation make rotations without arguments fail.")
c("C135", "proved", [HB+"c135_erased"])
c("C136", "partial", [HB+x for x in ("c136_before_partial", "c136_after_partial", "c136_stuck")], "False between the first write of the key store and the logging of the event: then no later rotation succeeds (c136_stuck). Proved before and after.")

GR = "Verif.Grp."
c("C137", "partial", [GR+x for x in ("c137_reported", "c137_logged_partial", "c137_stable", "c137_complete", "Demo.c137_other")], "That the event itself has been logged is false when another one is logged at its number, since the two are not compared (witness); proved otherwise.")
c("C138", "partial", [GR+x for x in ("c138_kept_partial", "Demo.c138_two", "Demo.c138_crash", "Demo.c138_raise")], "False when two events of a group wait, when a pass is interrupted and when it raises an exception (witnesses); proved otherwise.")
c("C139", "partial", [GR+x for x in ("c139_completed", "c139_stuck")], "Proved unless the pass raises an exception; false after a restart of the member with the first key when the group has witnesses (c139_stuck).")
c("C140", "proved", [GR+"c140_approved"])
c("C141", "partial", [GR+x for x in ("c141_kept_partial", "Demo.c141_crash")], "False when a pass is interrupted (witness); proved for all other histories, with exceptions. Given that digests of events do not collide.")
c("C142", "partial", [GR+x for x in ("c142_approved", "c142_completed", "c142_stuck", "c142_no_publisher")], "Proved unless the pass raises an exception, of an identifier with one waiting event; false after a restart and of a second delegation that waits when the first is completed (c142_stuck, c142_no_publisher).")
c("C143", "partial", [GR+x for x in ("c143_counselor", "c143_anchorer_partial", "Demo.c143_other")], "Proved of the Counselor; of the Anchorer if the approved event is the last one, else false (witness).")
MU = "Verif.Mux."
c("C144", "partial", [MU+x for x in ("c144_approved_partial", "Demo.c144_other", "Demo.c144_attached")], "Proved of messages of the second version; those of the first version can wrap anything under the SAID of an approved proposal (witnesses). Given that SAIDs of messages do not collide.")
c("C145", "partial", [MU+x for x in ("c145_all_partial", "c145_stored", "Demo.c145_blocked", "Demo.c145_crash")], "Proved for sequences in which no call raises an exception and none is interrupted; false otherwise (witnesses).")
c("C146", "proved", [MU+"c146_told", MU+"c146_tells"])

HD = "Verif.Hand."
c("C147", "proved", [HD+x for x in ("c147_delivered", "c147_contents", "c147_handed")], "Queries are the subject of C150.")
c("C148", "proved", [HD+"c148_fits", HD+"c148_stream"], "Events of credential registries and credentials need no signatures; they are anchored by seals.")
c("C149", "partial", [HD+x for x in ("c149_refused_partial", "c149_replayed", "c149_v1_ignored", "Demo.c149_denied_v1")], "False of messages of version 1, for which the lists are not looked at; proved of version 2, as is that messages not passed by replay protection reach no processor.")
c("C150", "partial", [HD+x for x in ("c150_group", "c150_couples_partial", "c150_couples_lost")], "Signature groups: proved for both versions. Couples: proved of version 2; in version 1 such queries are never handed over (c150_couples_lost).")
c("C151", "partial", [HD+x for x in ("c151_receipts_partial", "c151_receipts_lost", "Demo.c151_early")], "False when the event has to wait: then the receipts attached to it are dropped. Proved when the event is accepted or known.")
c("C152", "proved", [HD+x for x in ("c152_bytes", "c152_reached", "c152_signed")], "The decoding of bodies by their Serder class is a parameter. Signatures to the threshold: given that digests of the events in the stream do not collide.")

IS = "Verif.Iss."
c("C153", "proved", [IS+x for x in ("c153_logged", "c153_asked", "c153_sent")], "Given that digests do not collide. The receipts are counted, and compared with the witnesses the controller has at that moment.")
c("C154", "partial", [IS+x for x in ("c154_kept_partial", "c154_done_kept", "DemoIss.c154_crash_lost", "DemoIss.c154_crash_lost_group", "DemoIss.c154_group_dropped")], "Proved if passes of the Registrar are not interrupted and groups complete no other event; false otherwise (witnesses). That entries of completion stay is proved without conditions.")
c("C155", "partial", [IS+x for x in ("c155_done", "c155_complete", "c155_restart_waits", "c155_restart_unreported", "DemoIss.c155_stuck")], "Proved without restarts. False with them: events waiting for receipts wait forever, and events reported as complete are not so reported any more (proved of all such states).")
c("C156", "partial", [IS+"c156_sent_partial", IS+"DemoIss.c156_revocation_early"], "Proved if the Registrar was asked about one event of the log only; false of revocations.")
c("C157", "proved", [IS+"c157_issued", IS+"c157_kept"], "Given that digests do not collide.")
c("C158", "partial", [IS+x for x in ("c158_kept_partial", "c158_entered", "c158_completes", "c158_restart_never", "DemoIss.c158_crash_lost", "DemoIss.c158_stuck")], "Proved if passes of the Credentialer are not interrupted, and without restart after sending; false otherwise.")
c("C159", "partial", [IS+x for x in ("c159_accepted_partial", "c159_group", "DemoIss.c159_other_event")], "Groups: proved. Single controllers: proved if the seal is in the last key event, false otherwise: the key event given is not used.")

BS = "Verif.Bsr."
c("C160", "proved", [BS+"c160_log", BS+"c160_chain"], "Given that digests of registry events do not collide.")
c("C161", "proved", [BS+"c161_stays"], "Given that digests of registry events do not collide.")
c("C162", "partial", [BS+x for x in ("c162_head_partial", "c162_accepted", "c162_behind", "c162_stuck", "DemoBsr.head_behind", "DemoBsr.refused")], "Proved without crashes. A crash between two writes leaves the head behind; then updates are refused, and nothing but an event handed in from elsewhere repairs it (proved of all such states).")
c("C163", "partial", [BS+x for x in ("c163_sealed_partial", "c163_some", "DemoBsr.other_log")], "Proved if objects are attached to registries of their own habitat. Otherwise false: the log of the habitat of the object is searched, not that of the issuer; some log had the seal in every case.")
c("C164", "proved", [BS+x for x in ("c164_raised", "c164_taken", "c164_prior")], "")
c("C165", "partial", [BS+x for x in ("c165_result", "c165_kept_partial", "DemoBsr.lost")], "The results: proved. That waiting events are kept: proved without crashes and with objects of the own habitat; a crash in a pass loses an entry (witness).")
c("C166", "proved", [BS+"c166_pass"], "Given that digests of key events and of registry events do not collide.")
c("C167", "partial", [BS+x for x in ("c167_queue_partial", "DemoBsr.first_wins", "DemoBsr.later_wins")], "Proved of queued updates. False in general: events that are not queued are accepted in the order of arrival (witness).")
c("C168", "partial", [BS+x for x in ("c168_issue_partial", "c168_refused", "DemoBsr.dropped", "DemoBsr.goes_back")], "Place, predecessor and result: proved while the head is up to date; refusal of other credentials always. Acceptance once sealed is false: an update made before the one before it is accepted competes with it, and the loser is dropped.")
c("C169", "partial", [BS+x for x in ("c169_alias_partial", "c169_made", "c169_open", "c169_reopen", "c169_dotted", "DemoBsr.unloadable", "DemoBsr.orphan")], "Proved of aliases without the separator while the habitats are loaded. With an alias that has one, every later opening raises (proved); a crash while a registry is made can leave it without alias.")

CE = "Verif.Cesr."
c("C170", "partial", [CE+x for x in ("c170_read_back_partial", "c170_from_raw_partial", "c170_big_run", "Demo.c170_unreadable", "Demo.c170_changed")], "Proved of values as the builders write them (MsgOk). False of others: empty digests are unreadable, long runs of seals are unreadable, integers become text.")
c("C171", "partial", [CE+"c171_commits_partial", CE+"Demo.c171_counterexamples"], "Proved of values as the builders write them. False of others: unknown seals are left out of the bytes, different lists and routes have the same bytes.")
c("C172", "proved", [CE+"c172_unversioned", CE+"c172_kind_ok", CE+"Demo.rights"], "c172_kind_ok is the hypothesis of c125_made_verifies for native messages; used for concrete messages in Demo.rights.")
c("C173", "partial", [CE+x for x in ("c173_text_partial", "c173_truncated", "c173_binary_alone_partial", "c173_binary_strip_fails", "c173_binary_swapped")], "Text domain: proved of values as the builders write them. Binary domain: false, proved of all messages: with strip a message at the end of the stream is not read, and the second of two is given in place of the first.")

RP = "Verif.Replay."
c("C174", "partial", [RP+x for x in ("c174_replay_partial", "c174_complete", "Demo.c174_counterexamples")], "Completeness of the replay: proved. Reproduction: proved of logs of non-delegated identifiers, no event first seen twice, witness signatures stored, a weight for every key, the receiver no witness. False without these (witnesses).")
c("C175", "partial", [RP+x for x in ("c175_verified", "c175_kept_partial", "Demo.c175_counterexamples")], "Re-verification of logs: proved of any database. That nothing is lost: proved under the conditions of C174. False otherwise: own events that wait for receipts are lost and can be replaced, delegated identifiers that sort before their delegator lose their log.")

SB = "Verif.Sub."
c("C176", "partial", [SB+x for x in ("c176_keys", "c176_counterexamples")], "Proved of parts without separator. False of parts that contain it: nothing checks them.")
c("C177", "proved", [SB+x for x in ("c177_map", "c177_refused")], "For keys of parts without separator (C176) and values that the codec reads back (C180).")
c("C178", "partial", [SB+x for x in ("c178_sets_partial", "c178_nested", "c178_other_sep")], "Proved if no key is another one followed by a part that begins with 0, and with getLast only for the separator '.'. False otherwise (witnesses).")
c("C179", "partial", [SB+x for x in ("c179_branch", "c179_no_topive", "c179_sets")], "Proved of single values with topive and leading parts whose last one is not empty. Without topive the branch of (a, b) has (a, bc) as well; branches of sets include the key of the leading parts itself (witnesses).")
c("C180", "partial", [SB+x for x in ("c180_b64_partial", "c180_b64_refused", "c180_b64_empty", "c180_cesr", "c180_cesr_refused", "c180_cesr_lost", "c180_records_partial", "c180_records_class", "c180_records_unknown", "c180_records_inside")], "Proved of at least one Base64 text, of primitives of the classes of the sub-database, and of records that hold records only where a dataclass is annotated. False of no text, of more primitives than classes unless strict, of records in lists (witnesses).")
OB = "Verif.Oobi."
c("C181", "partial", [OB+x for x in ("c181_held_partial", "c181_dropped")], "Proved for all histories where a client can be made for the URL whenever it is tried. False otherwise: the URL is dropped without result or cue (witness).")
c("C182", "partial", [OB+x for x in ("c182_result", "c182_old", "c182_again")], "That a recorded result stays is proved of all histories. It is not that of the answer if the URL was asked for before: the old result is kept, the cue says the new one; and resolved URLs are requested again (witnesses).")
c("C183", "partial", [OB+x for x in ("c183_settled", "c183_stuck", "c183_untyped", "c183_foreign", "c183_unmatched")], "Proved: a pass over requested URLs raises nothing and settles all final answers, if no URL has the separator > and answers of status 200 have a content type. Proved false: one URL with > that is asked for stops every result of all URLs for ever, in all histories (c183_stuck). Servers that never answer are not timed out and not part of the claim.")
c("C184", "proved", [OB+x for x in ("c184_schema", "c184_silent")], "SAIDs of schemas are computed by a parameter (schemer), see C13 for what a SAID commits to. c184_silent: no cue is given if the schema is served as application/json.")
c("C185", "partial", [OB+x for x in ("c185_alias_partial", "c185_hijacked", "c185_unasked")], "Proved: the alias is from a record that was asked for or hinted by a URL. False: the server of another URL names the identifier that gets the alias, and peers can introduce URLs that hint aliases (witnesses).")
c("C186", "proved", [OB+x for x in ("c186_multi",)], "For URLs without the separator and without an earlier result (C182).")
c("C187", "partial", [OB+x for x in ("c187_mfa_partial", "c187_statuses")], "Exact characterisation: status at most 200. Statuses 201 to 399 are refused and those below 200 accepted (witness).")
OR = "Verif.Org."
c("C188", "partial", [OR+x for x in ("c188_get_partial", "c188_other", "c188_id")], "Proved of identifiers without separator of which none continues another, and field names without separator, other than id, with text values. Other values raise after the data was changed (witness).")
c("C189", "partial", [OR+x for x in ("c189_list_partial", "c189_dot", "c189_id", "c189_empty", "c189_continued")], "Proved under the conditions of C188, of contacts that have a field. False without them: one field name with a dot makes every list raise; a field id lists a contact as another; removing an identifier removes the fields of those that continue it (witnesses).")
c("C190", "partial", [OR+x for x in ("c190_find_partial", "c189_dot")], "Proved under the conditions of C188. find, with its patterns, is not modelled.")
c("C191", "partial", [OR+x for x in ("c191_signed_partial", "c191_swapped", "c191_unsigned")], "Proved of get: the data was signed once. False: for that contact, and last (signatures cover neither identifier nor time); list, values and the choice of contacts by findExact read the index that is not signed (witnesses).")
c("C192", "partial", [OR+x for x in ("c192_cut_partial", "c192_torn", "c192_lost", "c192_index")], "Proved: others unchanged, and the five things that can become of the contact. False that it is as before or after: it can be lost or raise at every get and update (witnesses).")
c("C193", "partial", [OR+x for x in ("c193_image_partial", "c193_large", "c193_continued")], "Proved of identifiers without separator and images below 4 GiB; larger ones raise after they are written (proved). Images of identifiers that continue this one are removed (witness).")
WT = "Verif.Watch."
c("C194", "partial", [WT+x for x in ("c194_duplicity", "c194_messages", "c194_earlier")], "Exact for contradiction at the number of the local key state and different digests of watchers ahead of it. Contradiction at earlier numbers is not looked for (proved).")
c("C195", "proved", [WT+x for x in ("c195_update", "c195_others", "c195_silent", "c195_no_answer", "c195_threshold")], "Witnesses: nothing is reported if fewer than the threshold are ahead; no answer at all is reported as consistent.")
c("C196", "partial", [WT+x for x in ("c196_honest_partial", "c196_false_alarm", "c196_case")], "Proved if those that are ahead are at one number. Proved false otherwise: honest watchers ahead at two different numbers always cause an alarm.")
HP = "Verif.Http."
c("C197", "partial", [HP+x for x in ("c197_roundtrip_partial", "c197_same_index", "c197_injection", "c197_tag_is_field", "c197_empty")], "Proved of signages with texts free of special characters and different tags. False otherwise: nothing is escaped, two signatures of one index become one, a tag can be read as a field, no signages give a header that cannot be read (witnesses).")
c("C198", "proved", [HP+x for x in ("c198_merge", "c198_spaces", "c198_count")], "Of any texts.")
c("C199", "partial", [HP+x for x in ("c199_validate", "c199_all_keys", "c199_no_header", "c199_other_kind")], "The condition under which a request is let through is exact: all current keys, no threshold. False that none raises: a missing header or another kind of signature raises (proved).")
c("C200", "partial", [HP+x for x in ("c200_partition", "c200_messages_partial", "c200_binary", "c200_other_kind")], "Nothing is lost, of any stream; one request per message for JSON with text attachments. Binary attachments are cut at a byte, messages in CBOR are posted as attachments (witnesses).")
c("C201", "partial", [HP+x for x in ("c201_signed_partial", "c201_line_ends", "c201_skipped")], "Proved of values without line ends. Fields asked for that the request does not have are left out silently (proved).")
c("C202", "proved", [HP+x for x in ("c202_served",)], "Decision of the request stated outright, over any state. What the messages say comes as input.")
NT = "Verif.Note."
c("C203", "partial", [NT+x for x in ("c203_book", "c203_order", "c203_announced", "c203_crash_add", "c203_crash_rem")], "Proved over all histories of calls. False over crashes: a half made addition makes marking and removal raise, a half made removal makes reading raise for good (witnesses).")
c("C204", "partial", [NT+x for x in ("c204_tampered", "c204_removed_silently")], "Proved of reading and marking. A tampered notice is removed with the answer that all is well (witness).")
c("C205", "partial", [NT+x for x in ("c205_page", "c205_pages", "c205_backwards")], "Proved of ranges that do not end before they start; those give everything from their start (proved).")
c("C206", "partial", [NT+x for x in ("c206_push", "c206_delivered_partial", "c206_notices", "c206_no_topic")], "Proved of signals with a topic; one without loses itself and those before it (witness). All notices share one collapse key, so that only the last is announced (proved).")
c("C207", "partial", [NT+x for x in ("c207_round_partial", "c207_only_old", "c207_killed_by_push", "c207_killed_by_collapse")], "Only old ones, over any interleaving. All old ones in an undisturbed round. A push during a round ends the expiry for good (proved).")
AT = "Verif.Agt."
c("C208", "partial", [AT+x for x in ("c208_shared", "c208_complete", "c208_introduced", "c208_catchup", "c208_delegated", "c208_no_endpoint")], "Proved of results and receipts. Added witnesses are brought up to date in rotations only, not in those of delegated identifiers (proved); one without an endpoint keeps the event from everybody (proved).")
c("C209", "partial", [AT+x for x in ("c209_shared_partial", "c209_order")], "Proved to hold if and only if receipts are stored in the order of the witnesses; otherwise a witness is sent its own in the place of another's (witness).")
c("C210", "partial", [AT+x for x in ("c210_http", "c210_http_order", "c210_tcp_partial", "c210_tcp_waiting")], "Exact for HTTP. Over TCP a messenger with messages waiting is idle (proved).")
c("C211", "partial", [AT+x for x in ("c211_sent_partial", "c211_never_idle")], "Proved of events of own identifiers. One event of another makes the publisher not idle for ever (proved).")
c("C212", "partial", [AT+x for x in ("c212_done", "c212_unknown", "c212_noticer", "c212_noticer_none")], "Proved of known identifiers. For unknown ones, queries by number or seal are not sent (proved).")
ED = "Verif.Ends."
FWD = "Verif.Fwd."
c("C213", "partial", [ED+x for x in ("c213_authorised", "c213_url", "c213_urls", "c213_scheme_partial", "c213_http", "c213_roles", "c213_none")], "Proved for all histories. Asked for HTTP, URLs of HTTPS are given too (proved).")
c("C214", "partial", [ED+x for x in ("c214_partial", "c214_witnesses", "c214_ends", "c214_cut")], "Proved of histories in which no role is cut. Fails otherwise: an endpoint that was cut is used still (proved).")
c("C215", "partial", [ED+x for x in ("c215_unknown", "c215_log", "c215_authorised", "c215_locations", "c215_own", "c215_made", "c215_misattributed", "c215_all_roles")], "Proved of logs, authorisations and locations. Asked for the witnesses of another, a habitat signs that they are its own; asked for all roles it tells of no witnesses (proved).")
c("C216", "partial", [ED+x for x in ("c216_authorised_partial", "c216_raises", "c216_witness")], "Proved when there is no exception; there is one when the log of an endpoint is not known (proved).")
c("C217", "partial", [FWD+x for x in ("c217_reachable", "c217_scheme", "c217_direct", "c217_relayed", "c217_no_attachment", "c217_transferable", "c217_config")], "Proved of deliveries without exception. Messages without attachments cannot be relayed, nor any to transferable mailboxes; an endpoint without a URL keeps others from being sent to (proved).")
c("C218", "partial", [FWD+x for x in ("c218_partial", "c218_sent", "c218_await", "c218_stops", "c218_witness", "c218_nobody", "c218_cut", "c218_waits")], "Proved while no uncaught exception is raised. After one nothing is served; what is sent to nobody is not reported, and waiting for it does not end (proved).")
c("C219", "partial", [FWD+x for x in ("c219_delivered_partial", "c219_relayed", "c219_queued", "c219_oversize", "c219_duplicates", "c219_first_role", "c219_tcp", "c219_wrapped", "c219_wrapped_witness", "c219_no_attachment", "c219_own_mailbox")], "Proved for one controller with HTTP and events that fit. Fails for larger ones in ESSR mode (no end), several chunks (messengers twice), several roles, TCP, and controllers who have mailboxes (proved).")
c("C220", "partial", [FWD+x for x in ("c220_introduced", "c220_always", "c220_transferable")], "Proved that those who may not know it are introduced to. Receipts are never found, so everybody is; for transferable identifiers an exception is raised (proved).")
AN = "Verif.Ann."
c("C221", "partial", [AN+x for x in ("c221_undone_partial", "c221_interactions", "denot_render", "Demo.c221_threshold", "Demo.c221_alphabet")], "Proved for all native key events of the builders in the text domain and for every stream that announces an interaction. Of other streams it is false: thresholds are written anew, and `+` and `/` come back as `-` and `_` (proved).")
c("C222", "partial", [AN+x for x in ("c222_ends_partial", "c222_hangs")], "Proved for streams that do not start in the binary domain. Those never end (proved of all of them).")
c("C223", "partial", [AN+x for x in ("c223_alone", "c223_types", "c223_classes", "Demo.c223_count", "Demo.c223_reply")], "Proved that nothing may follow a message and that only five types are annotated. The counter in front is not compared with what follows (proved).")
RG = "Verif.Reg."
c("C224", "partial", [RG+x for x in ("c224_found_partial", "c224_name_taken", "c224_unknown", "c224_identifier_gone", "Demo.c224_second_lost")], "Proved for names not used before. A registry made under a name already used is not recorded and gone after a restart; a restart without the identifier of any one registry raises (both proved).")
c("C225", "partial", [RG+x for x in ("c225_issued", "c225_revoked", "c225_sealed_partial", "c225_not_again", "c225_not_unissued")], "Digests are assumed free of collisions. Taking effect is proved when nothing else waits for the credential and no other seal was told before; what happens otherwise is in C60.")
c("C226", "partial", [RG+x for x in ("c226_rotated", "c226_accepted_partial", "c226_issued", "c226_no_backers", "c226_incepted", "Demo.c226_backers_after_restart", "Demo.c226_number_again")], "Acceptance is proved for registries in memory since they were made. After a restart signatures of backers are needed and rotations are forgotten (proved).")
c("C227", "partial", [RG+x for x in ("c227_issue_partial", "c227_rotate_fails", "c227_revoke_fails", "c227_restarted", "Demo.c227_until_restart")], "Proved for issuing. Rotating and revoking always raise (proved for all states and events).")
TS = "Verif.Tsn."
c("C228", "partial", [TS+x for x in ("c228_saved_partial", "c228_untrusted", "c228_untrusted_credential", "c228_own_backer", "c228_own_registry", "Demo.c228_not_controller", "Demo.c228_not_issuer")], "Proved with the controller, backers and registry that the notice names. A source that names itself backer, or its own registry, is taken for any registry or credential (proved).")
c("C229", "partial", [TS+x for x in ("c229_registry_partial", "c229_others", "c229_last_saved", "Demo.c229_goes_back")], "Proved for registries against the node's own state, and of other sources. A credential's older notice replaces a newer one (proved for all states; witness).")
c("C230", "partial", [TS+x for x in ("c230_left", "c230_taken_partial", "c230_told", "c230_kept", "c230_signatures", "Demo.c230_given_up")], "Proved for notices not older than an hour; older ones are dropped though all is there (witness).")
c("C231", "partial", [TS+x for x in ("c231_asks_controller", "c231_asks_registry", "c231_asks_events", "c231_asks_source", "Demo.c231_not_controller")], "Proved but for a credential's notice with the registry's controller unknown: the source's key state is asked for (proved for all states).")
TR = "Verif.TelRep."
c("C232", "partial", [TR+x for x in ("c232_answered", "c232_missing", "c232_replayed_partial", "c232_replayed_backed_partial", "Demo.c232_wrong_seal_sent", "Demo.c232_unbacked_sent", "Demo.c232_foreign_revocation_lost")], "The answer is proved for all reached states. That it leads to the same logs is proved for registries never rotated, if the stored seals are in the receiver's key events and the stored signatures of backers are enough; it fails with a wrong seal stored, for own registries with backers and for credentials of two registries (witnesses). Not proved: rotated registries.")
c("C233", "partial", [TR+x for x in ("c233_registry", "c233_credential_never", "Demo.c233_known_credential")], "Proved for registries. Queries that name a credential always raise after the registry's state (proved for all states).")
WB = "Verif.Web."
c("C234", "partial", [WB+x for x in ("c234_same_partial", "c234_empty_key", "Demo.c234_empty_value", "Demo.c234_append_neighbour")], "Proved for all sequences of calls with keys and values that are not empty, as long as the database on disk raises nothing and numbers fit. It fails for empty keys, for empty values and beside keys without numbers. Sets in order of insertion are C236.")
c("C235", "partial", [WB+x for x in ("c235_unpack", "c235_flushed", "c235_reopens", "c235_kept_partial", "c235_lost", "c235_not_cleared", "Demo.c235_lost_case", "Demo.c235_not_cleared_case")], "A flush keeps what there was when it started, and stores can always be opened again. That unmarked stores are kept in full is proved if nothing changes during flushes; what does change then is lost, and clearing on close clears nothing that is kept (proved for all states).")
c("C236", "partial", [WB+x for x in ("c236_refines_partial", "c236_same_partial", "Demo.c236_nested_keys", "Demo.c236_last_separator")], "Proved for all sequences of calls on keys none of which is another one followed by the separator and 0. For such keys values are lost (witness), other than on disk where they are refused. Sets at numbered keys are C239.")
CO = "Verif.Conf."
c("C237", "partial", [CO+x for x in ("c237_last_partial", "c237_closed", "c237_during_last", "c237_failed_put", "c237_interrupted", "Demo.c237_failed_put_case", "Demo.c237_human_not_read")], "Proved for all sequences of puts that succeed. A put that raises empties the file, and every put goes through a state in which it is empty (both proved for all states).")
SH = "Verif.Sch."
c("C238", "partial", [SH+x for x in ("c238_addressed", "c238_one", "c238_made", "c238_resolved", "c238_found", "c238_agree", "c238_kind_set", "Demo.c238_changed", "Demo.c238_other_bytes", "Demo.c238_kind_set_case")], "Proved of loading, making and caches, but for texts with the same digest, of schemas without a field v at the top. Setting the kind exchanges content and kind and spoils the identifier (proved for all schemas).")
c("C239", "partial", [WB+x for x in ("c239_marked", "c239_kept_partial", "c239_append_same", "c239_append_lost", "c239_rem_lost", "c239_mended", "Demo.c239_changed", "Demo.c239_half_append")], "Proved for all histories without appending sets and without removing them from a number on. These two change the store without marking it: what they did to a flushed store is not kept by any later flush until something else is changed (proved for all stores). An append that raises leaves some of its values in browsers and none on disk (witness).")
c("C240", "partial", [D+"c240_removed_partial", WB+"c240_same", D+"c240_nested_keys"], "Proved for databases in which no key is another one followed by the separator, false otherwise (c240_nested_keys). That browsers do the same is proved for all databases and all keys that are not empty.")
c("C241", "partial", [WB+x for x in ("c241_count_partial", "c241_back_partial", "c241_last_back_partial", "c241_all_same", "c241_missing", "c241_nested_keys")], "Proved for databases in which no key is another one followed by the separator; for others forward and backward differ (c241_nested_keys). Without a key, proved to be as on disk for all databases.")
c("C242", "partial", [WB+x for x in ("c242_last_partial", "c242_same", "c242_separator", "c242_all_partial", "c242_all_same")], "Proved for databases in which no key is another one followed by the separator, in browsers for every separator, on disk for the separator . only: with others nothing may be yielded (witness). Without a key, on disk and in browsers for every separator.")
c("C243", "partial", [WB+x for x in ("c243_last_partial", "c243_same", "Demo.c243_nested_keys", "Demo.c243_separator")], "Proved for databases in which no key is another one followed by the separator; others are yielded more than once (witness). On disk, from a key on, only for the separator . (witness).")
c("C244", "partial", [WB+x for x in ("c244_reads_partial", "c244_kept_partial", "c244_closed", "Demo.c244_lost", "Demo.c244_stale")], "Proved for all histories of setting, reading and flushing of an open database, the keeping if no version is set while a flush is under way. False after closing (proved for all states), while a flush is under way and if the store is emptied through its handle (witnesses).")
M.sort(key=lambda x: int(x['property'][1:]))
p = os.path.join(os.path.dirname(__file__), "..", "MANIFEST.json")
json.dump({"claims": M}, open(p, "w"), indent=1)
