# Axioms of the theorems in MANIFEST.json

Generated by `tools/axioms.py` from the output of `#print axioms`.

## Classical.choice, Quot.sound, propext

* `Verif.Agt.c208_introduced`
* `Verif.Agt.c209_shared_partial`
* `Verif.Agt.c210_tcp_partial`
* `Verif.Agt.c210_tcp_waiting`
* `Verif.Agt.c211_never_idle`
* `Verif.Agt.c211_sent_partial`
* `Verif.Ann.Demo.c221_alphabet`
* `Verif.Ann.Demo.c221_threshold`
* `Verif.Ann.Demo.c223_count`
* `Verif.Ann.Demo.c223_reply`
* `Verif.Ann.c221_interactions`
* `Verif.Ann.c221_undone_partial`
* `Verif.Ann.c222_ends_partial`
* `Verif.Ann.c222_hangs`
* `Verif.Ann.c223_alone`
* `Verif.Ann.c223_classes`
* `Verif.Ann.c223_types`
* `Verif.Ann.denot_render`
* `Verif.B64.c01_int_roundtrip`
* `Verif.B64.c01_text_refused`
* `Verif.B64.c01_text_roundtrip`
* `Verif.B64.c02_b2_to_b64`
* `Verif.B64.c02_b64_to_b2`
* `Verif.B64.c02_code_roundtrip`
* `Verif.B64.c02_nab_sextets`
* `Verif.Bsr.DemoBsr.dropped`
* `Verif.Bsr.DemoBsr.first_wins`
* `Verif.Bsr.DemoBsr.goes_back`
* `Verif.Bsr.DemoBsr.head_behind`
* `Verif.Bsr.DemoBsr.later_wins`
* `Verif.Bsr.DemoBsr.lost`
* `Verif.Bsr.DemoBsr.orphan`
* `Verif.Bsr.DemoBsr.other_log`
* `Verif.Bsr.DemoBsr.refused`
* `Verif.Bsr.DemoBsr.unloadable`
* `Verif.Bsr.c160_chain`
* `Verif.Bsr.c160_log`
* `Verif.Bsr.c161_stays`
* `Verif.Bsr.c162_accepted`
* `Verif.Bsr.c162_head_partial`
* `Verif.Bsr.c162_stuck`
* `Verif.Bsr.c163_sealed_partial`
* `Verif.Bsr.c163_some`
* `Verif.Bsr.c164_raised`
* `Verif.Bsr.c165_kept_partial`
* `Verif.Bsr.c165_result`
* `Verif.Bsr.c166_pass`
* `Verif.Bsr.c167_queue_partial`
* `Verif.Bsr.c168_issue_partial`
* `Verif.Bsr.c169_alias_partial`
* `Verif.Bsr.c169_dotted`
* `Verif.Bsr.c169_made`
* `Verif.Bsr.c169_open`
* `Verif.Bsr.c169_reopen`
* `Verif.Cesr.Demo.c170_changed`
* `Verif.Cesr.Demo.c170_unreadable`
* `Verif.Cesr.Demo.c171_counterexamples`
* `Verif.Cesr.Demo.rights`
* `Verif.Cesr.c170_big_run`
* `Verif.Cesr.c170_from_raw_partial`
* `Verif.Cesr.c170_read_back_partial`
* `Verif.Cesr.c171_commits_partial`
* `Verif.Cesr.c172_kind_ok`
* `Verif.Cesr.c172_unversioned`
* `Verif.Cesr.c173_binary_alone_partial`
* `Verif.Cesr.c173_binary_strip_fails`
* `Verif.Cesr.c173_binary_swapped`
* `Verif.Cesr.c173_text_partial`
* `Verif.Cesr.c173_truncated`
* `Verif.Ctr.c81_aligned`
* `Verif.Ctr.c81_binary`
* `Verif.Ctr.c81_long`
* `Verif.Ctr.c81_prefix`
* `Verif.Ctr.c81_prefix_binary`
* `Verif.Ctr.c81_promotion_partial`
* `Verif.Ctr.c81_text`
* `Verif.Ctr.c81_unique`
* `Verif.Ctr.c82_accepts`
* `Verif.Ctr.c82_binary`
* `Verif.Ctr.c82_composable`
* `Verif.Ctr.c82_nested`
* `Verif.Ctr.c82_streams`
* `Verif.Ctr.c82_text`
* `Verif.Ctr.c83_injective`
* `Verif.Ctr.c83_version`
* `Verif.Db.c240_removed_partial`
* `Verif.Db.c36_injective`
* `Verif.Db.c36_order`
* `Verif.Db.c36_split`
* `Verif.Db.c36_width`
* `Verif.Db.c37_numbered`
* `Verif.Db.c37_refines_partial`
* `Verif.Db.c38_append_partial`
* `Verif.Db.c38_append_set_partial`
* `Verif.Db.c38_history_partial`
* `Verif.Db.c38_read`
* `Verif.Db.c38_remove_all`
* `Verif.Db.c38_write`
* `Verif.Db.c39_refines_partial`
* `Verif.Db.c40_iter`
* `Verif.Db.c40_remove`
* `Verif.Db.c41_back_partial`
* `Verif.Db.c41_dup_back_partial`
* `Verif.Db.c41_last_back_partial`
* `Verif.Db.c41_last_forward`
* `Verif.Db.c41_last_forward_sep`
* `Verif.Ends.c213_none`
* `Verif.Ends.c213_roles`
* `Verif.Ends.c214_ends`
* `Verif.Ends.c214_partial`
* `Verif.Ends.c214_witnesses`
* `Verif.Exc.Demo.c101_first_key`
* `Verif.Exc.Demo.c101_old_key`
* `Verif.Exc.Demo.c102_twice`
* `Verif.Exc.Demo.c103_foreign_route`
* `Verif.Exc.Demo.c103_spurned_grant`
* `Verif.Exc.Demo.c104_blocked`
* `Verif.Exc.Demo.c104_stranger`
* `Verif.Exc.Demo.c105_poisoned`
* `Verif.Exc.Demo.c106_kept`
* `Verif.Exc.Demo.c107_lost`
* `Verif.Exc.Demo.c108_no_answer`
* `Verif.Exc.Demo.c108_replaced`
* `Verif.Exc.Demo.c108_unreadable`
* `Verif.Exc.c101_saved`
* `Verif.Exc.c101_waiting`
* `Verif.Exc.c102_handled`
* `Verif.Exc.c102_once1`
* `Verif.Exc.c102_once2`
* `Verif.Exc.c102_saved`
* `Verif.Exc.c102_veto`
* `Verif.Exc.c103_thread1_partial`
* `Verif.Exc.c103_thread2`
* `Verif.Exc.c104_one1`
* `Verif.Exc.c104_one2`
* `Verif.Exc.c105_gather_partial`
* `Verif.Exc.c106_timeout`
* `Verif.Exc.c107_essr`
* `Verif.Exc.c108_again_partial`
* `Verif.Exc.c108_gathered_partial`
* `Verif.Exc.c114_nested`
* `Verif.Exc.c115_asked`
* `Verif.Fwd.c217_relayed`
* `Verif.Fwd.c218_await`
* `Verif.Grp.c137_logged_partial`
* `Verif.Grp.c137_reported`
* `Verif.Grp.c138_kept_partial`
* `Verif.Grp.c139_completed`
* `Verif.Grp.c139_stuck`
* `Verif.Grp.c140_approved`
* `Verif.Grp.c141_kept_partial`
* `Verif.Grp.c142_approved`
* `Verif.Grp.c142_completed`
* `Verif.Grp.c142_stuck`
* `Verif.Grp.c143_anchorer_partial`
* `Verif.Hab.DemoHab.c130_short_weights`
* `Verif.Hab.DemoHab.c131_short_weights`
* `Verif.Hab.DemoHab.c134_stash_default`
* `Verif.Hab.c130_sync_partial`
* `Verif.Hab.c131_result_partial`
* `Verif.Hab.c132_content`
* `Verif.Hab.c132_interact`
* `Verif.Hab.c132_make`
* `Verif.Hab.c132_rotate`
* `Verif.Hab.c133_clear`
* `Verif.Hab.c133_default`
* `Verif.Hab.c134_refused`
* `Verif.Hab.c134_stash`
* `Verif.Hab.c135_erased`
* `Verif.Hab.c136_after_partial`
* `Verif.Hab.c136_before_partial`
* `Verif.Hab.c136_stuck`
* `Verif.Hand.Demo.c149_denied_v1`
* `Verif.Hand.Demo.c151_early`
* `Verif.Hand.c147_contents`
* `Verif.Hand.c147_delivered`
* `Verif.Hand.c147_handed`
* `Verif.Hand.c148_stream`
* `Verif.Hand.c151_receipts_lost`
* `Verif.Hand.c151_receipts_partial`
* `Verif.Hand.c152_bytes`
* `Verif.Hand.c152_reached`
* `Verif.Hand.c152_signed`
* `Verif.Http.c197_empty`
* `Verif.Http.c197_injection`
* `Verif.Http.c197_roundtrip_partial`
* `Verif.Http.c197_same_index`
* `Verif.Http.c197_tag_is_field`
* `Verif.Http.c198_count`
* `Verif.Http.c198_merge`
* `Verif.Http.c198_spaces`
* `Verif.Http.c199_all_keys`
* `Verif.Http.c199_no_header`
* `Verif.Http.c199_other_kind`
* `Verif.Http.c199_validate`
* `Verif.Http.c201_line_ends`
* `Verif.Http.c201_signed_partial`
* `Verif.Http.c201_skipped`
* `Verif.Http.c202_served`
* `Verif.Idr.c78_aligned`
* `Verif.Idr.c78_binary`
* `Verif.Idr.c78_text`
* `Verif.Idr.c79_binary_prefix`
* `Verif.Idr.c79_self_framing`
* `Verif.Idr.c79_self_framing_binary`
* `Verif.Idr.c79_stream`
* `Verif.Idr.c79_text_prefix`
* `Verif.Idr.c79_unique`
* `Verif.Idr.c80_accepts`
* `Verif.Idr.c80_parsed`
* `Verif.Idr.c80_signed`
* `Verif.Idr.c80_signed_roundtrip`
* `Verif.Iss.DemoIss.c154_crash_lost`
* `Verif.Iss.DemoIss.c154_crash_lost_group`
* `Verif.Iss.DemoIss.c154_group_dropped`
* `Verif.Iss.DemoIss.c155_stuck`
* `Verif.Iss.DemoIss.c156_revocation_early`
* `Verif.Iss.DemoIss.c158_crash_lost`
* `Verif.Iss.DemoIss.c158_stuck`
* `Verif.Iss.DemoIss.c159_other_event`
* `Verif.Iss.c153_asked`
* `Verif.Iss.c153_logged`
* `Verif.Iss.c153_sent`
* `Verif.Iss.c154_done_kept`
* `Verif.Iss.c154_kept_partial`
* `Verif.Iss.c155_done`
* `Verif.Iss.c155_restart_unreported`
* `Verif.Iss.c155_restart_waits`
* `Verif.Iss.c156_sent_partial`
* `Verif.Iss.c157_issued`
* `Verif.Iss.c157_kept`
* `Verif.Iss.c158_completes`
* `Verif.Iss.c158_entered`
* `Verif.Iss.c158_kept_partial`
* `Verif.Iss.c158_restart_never`
* `Verif.Iss.c159_accepted_partial`
* `Verif.Iss.c159_group`
* `Verif.Kel.c16_chain_broken`
* `Verif.Kel.c16_chain_nondelegated`
* `Verif.Kel.c16_chain_partial`
* `Verif.Kel.c17_append_only`
* `Verif.Kel.c17_one_step`
* `Verif.Kel.c17_ordinals`
* `Verif.Kel.c18_once`
* `Verif.Kel.c18_twice_with_drt`
* `Verif.Kel.c19_signing_threshold`
* `Verif.Kel.c20_current_state`
* `Verif.Kel.c20_prerotation_partial`
* `Verif.Kel.c20_superseding_drt`
* `Verif.Kel.c21_distinct_witnesses_partial`
* `Verif.Kel.c21_one_witness_counts_twice`
* `Verif.Kel.c21_witness_threshold_partial`
* `Verif.Kel.c22_nodup`
* `Verif.Kel.c22_other`
* `Verif.Kel.c22_recovery_ignores_cuts`
* `Verif.Kel.c22_rotation_partial`
* `Verif.Kel.c23_changed`
* `Verif.Kel.c23_refused`
* `Verif.Kel.c24_est_permanent_partial`
* `Verif.Kel.c24_recovery_partial`
* `Verif.Kel.c24_rotation_superseded`
* `Verif.Kel.c24_update`
* `Verif.Kel.c25_frozen`
* `Verif.Kel.c26_est_only`
* `Verif.Kel.c27_replay_accepted`
* `Verif.Kel.c27_replay_partial`
* `Verif.Kel.c28_first_seen_wins_partial`
* `Verif.Kel.c28_not_recorded`
* `Verif.Kel.c29_anchor`
* `Verif.Kel.c29_delegable`
* `Verif.Kel.c29_superseded_anchor`
* `Verif.Kel.c29_superseding`
* `Verif.Kel.c30_history_partial`
* `Verif.Kel.c30_laundered`
* `Verif.Kel.c30_remote_partial`
* `Verif.Kel.c31_any_history_partial`
* `Verif.Kel.c31_order_partial`
* `Verif.Kel.c31_pieces_partial`
* `Verif.Kel.c31_prefix_partial`
* `Verif.Kel.c32_crash_replaced`
* `Verif.Kel.c32_first_seen_twice`
* `Verif.Kel.c32_reprocess_partial`
* `Verif.Kel.c32_stored`
* `Verif.Kel.c33_stored_verify_partial`
* `Verif.Kel.c33_unverified_kept`
* `Verif.Kel.c35_authority`
* `Verif.Kel.c35_lookup`
* `Verif.Kel.c48_key_state`
* `Verif.Kel.c49_distinct_positions_partial`
* `Verif.Kel.c49_one_key_counts_twice`
* `Verif.Kel.c51_cuts_in_order`
* `Verif.Kel.c51_cuts_refused`
* `Verif.Kel.c51_inception`
* `Verif.Kel.c51_interaction`
* `Verif.Kel.c51_rotation_partial`
* `Verif.Krm.Demo.c100_sealed_unchecked`
* `Verif.Krm.Demo.c91_ahead_replayed`
* `Verif.Krm.Demo.c91_late_replayed`
* `Verif.Krm.Demo.c91_multi_replayed`
* `Verif.Krm.Demo.c91_seal_replayed`
* `Verif.Krm.Demo.c94_removed`
* `Verif.Krm.Demo.c94_restarted`
* `Verif.Krm.Demo.c94_stuck`
* `Verif.Krm.Demo.c94_taken_back`
* `Verif.Krm.Demo.c94_widened`
* `Verif.Krm.c100_attached_partial`
* `Verif.Krm.c91_begin_partial`
* `Verif.Krm.c91_exchange_partial`
* `Verif.Krm.c91_multi_partial`
* `Verif.Krm.c91_single_partial`
* `Verif.Krm.c91_unsealed_partial`
* `Verif.Krm.c92_authentic`
* `Verif.Krm.c92_distinct`
* `Verif.Krm.c93_timely`
* `Verif.Krm.c94_narrow_partial`
* `Verif.Krm.c96_exchanges`
* `Verif.Krm.c96_messages`
* `Verif.Krm.c96_waiting`
* `Verif.Krm.c99_at_once`
* `Verif.Krm.c99_begin`
* `Verif.Krm.c99_exempt`
* `Verif.Krm.c99_follow`
* `Verif.Krm.c99_gathered`
* `Verif.Mad.Demo.c116_counterexamples`
* `Verif.Mad.Demo.c116_lenient`
* `Verif.Mad.Demo.c116_not_base64`
* `Verif.Mad.c116_base64_partial`
* `Verif.Mad.c116_binary_partial`
* `Verif.Mad.c116_enough`
* `Verif.Mad.c116_injective_partial`
* `Verif.Mad.c116_text_partial`
* `Verif.Mad.c116_truncated`
* `Verif.Mad.c117_checked`
* `Verif.Mad.c117_code`
* `Verif.Mad.c117_idempotent`
* `Verif.Mad.c117_made_verifies`
* `Verif.Mad.c117_others_kept`
* `Verif.Mad.c117_received_partial`
* `Verif.Mad.c118_commits_other`
* `Verif.Mad.c118_commits_partial`
* `Verif.Mad.c118_determines_partial`
* `Verif.Mad.c119_compact_verifies_partial`
* `Verif.Mad.c119_compacts_partial`
* `Verif.Mad.c120_disclosures_partial`
* `Verif.Mad.c120_hidden_partial`
* `Verif.Mad.c121_agree_other_partial`
* `Verif.Mad.c121_agree_partial`
* `Verif.Mad.c122_disclosure_partial`
* `Verif.Mad.c122_kept`
* `Verif.Mad.c122_made_verifies`
* `Verif.Mad.c122_selective_partial`
* `Verif.Mad.c123_commits_other_partial`
* `Verif.Mad.c123_commits_partial`
* `Verif.Mad.c123_same_map`
* `Verif.Mad.c124_made_partial`
* `Verif.Mad.c124_received_partial`
* `Verif.Matter.c03_special_roundtrip_partial`
* `Verif.Matter.c03_text_roundtrip`
* `Verif.Matter.c04_binary_roundtrip`
* `Verif.Matter.c05_aligned`
* `Verif.Matter.c05_composable`
* `Verif.Matter.c06_self_framing`
* `Verif.Matter.c06_self_framing_binary`
* `Verif.Matter.c06_stream`
* `Verif.Matter.c07_binary_prefix`
* `Verif.Matter.c07_text_prefix_partial`
* `Verif.Matter.c08_binary_unique`
* `Verif.Matter.c08_canonical_partial`
* `Verif.Matter.c08_unique_partial`
* `Verif.Matter.c09_rize`
* `Verif.Matter.c09_variable_size`
* `Verif.Matter.c44_bexter_roundtrip`
* `Verif.Matter.c45_number_auto`
* `Verif.Matter.c45_number_roundtrip`
* `Verif.Matter.c46_decimer_roundtrip_partial`
* `Verif.Matter.c46_exponent_sign_flips`
* `Verif.Matter.c47_dater_roundtrip`
* `Verif.Matter.c47_dater_short`
* `Verif.Matter.c50_all_documented`
* `Verif.Matter.c50_sizes`
* `Verif.Mbx.c109_read_partial`
* `Verif.Mbx.c109_stored_partial`
* `Verif.Mbx.c109_whole_partial`
* `Verif.Mbx.c110_delivered_partial`
* `Verif.Mbx.c110_none_skipped_partial`
* `Verif.Mbx.c111_exact_partial`
* `Verif.Mbx.c112_others_partial`
* `Verif.Mbx.c112_own_partial`
* `Verif.Mgr.c71_rotate_calm_partial`
* `Verif.Mgr.c71_rotate_partial`
* `Verif.Mgr.c71_sign_partial`
* `Verif.Mgr.c72_one_identifier`
* `Verif.Mgr.c73_erased_partial`
* `Verif.Mgr.c74_at_rest_partial`
* `Verif.Mgr.c74_right_seed_partial`
* `Verif.Mgr.c75_rotate_partial`
* `Verif.Mgr.c76_sign`
* `Verif.Mgr.c77_replayed_partial`
* `Verif.Note.c203_announced`
* `Verif.Note.c203_book`
* `Verif.Note.c203_order`
* `Verif.Note.c205_backwards`
* `Verif.Note.c205_page`
* `Verif.Note.c205_pages`
* `Verif.Note.c207_killed_by_push`
* `Verif.Note.c207_only_old`
* `Verif.Note.c207_round_partial`
* `Verif.Oobi.c187_mfa_partial`
* `Verif.Org.c188_get_partial`
* `Verif.Org.c189_list_partial`
* `Verif.Org.c190_find_partial`
* `Verif.Org.c193_image_partial`
* `Verif.Org.c193_large`
* `Verif.Prs.DemoGeneric.c85_bare_dropped`
* `Verif.Prs.DemoGeneric.c85_second_group`
* `Verif.Prs.DemoGeneric.c86_truncated`
* `Verif.Prs.DemoGeneric.c87_after_group`
* `Verif.Prs.DemoGeneric.c88_flush`
* `Verif.Prs.DemoGeneric.c88_livelock`
* `Verif.Prs.c84_parsed`
* `Verif.Prs.c84_roundtrip`
* `Verif.Prs.c84_smelled`
* `Verif.Prs.c85_message_roundtrip`
* `Verif.Prs.c86_stream_roundtrip`
* `Verif.Prs.c87_pieces`
* `Verif.Prs.c88_failures_stay_inside`
* `Verif.Prs.c89_text_or_binary`
* `Verif.Prs.c90_generic_transparent`
* `Verif.Prs.c97_parse`
* `Verif.Prs.c97_pieces`
* `Verif.Rct.DemoRct.c34_attached_witness`
* `Verif.Rct.DemoRct.c34_duplicitous`
* `Verif.Rct.DemoRct.c34_index_shifted`
* `Verif.Rct.DemoRct.c34_misfiled`
* `Verif.Rct.DemoRct.c34_superseded`
* `Verif.Rct.DemoRct.c34_unknown_raises`
* `Verif.Rct.DemoRct.c53_through_escrow`
* `Verif.Rct.DemoRct.c54_witness_receipt_lost`
* `Verif.Rct.c34_couples`
* `Verif.Rct.c34_good_attached_stored`
* `Verif.Rct.c34_good_group_stored`
* `Verif.Rct.c34_good_stored`
* `Verif.Rct.c34_groups_partial`
* `Verif.Rct.c34_groups_some`
* `Verif.Rct.c34_kept`
* `Verif.Rct.c34_key_events`
* `Verif.Rct.c34_last_partial`
* `Verif.Rct.c34_witness_signatures`
* `Verif.Rct.c53_own_receipts_partial`
* `Verif.Rct.c54_couple_stored`
* `Verif.Rct.c54_group_stored`
* `Verif.Rct.c54_patient`
* `Verif.Rct.c54_witness_never_stored`
* `Verif.Rct.c54_witness_stored_partial`
* `Verif.Reg.Demo.c224_second_lost`
* `Verif.Reg.Demo.c226_backers_after_restart`
* `Verif.Reg.Demo.c226_number_again`
* `Verif.Reg.Demo.c227_until_restart`
* `Verif.Reg.c224_found_partial`
* `Verif.Reg.c224_identifier_gone`
* `Verif.Reg.c224_name_taken`
* `Verif.Reg.c224_unknown`
* `Verif.Reg.c225_issued`
* `Verif.Reg.c225_revoked`
* `Verif.Reg.c225_sealed_partial`
* `Verif.Reg.c226_accepted_partial`
* `Verif.Reg.c226_incepted`
* `Verif.Reg.c226_issued`
* `Verif.Reg.c226_rotated`
* `Verif.Replay.Demo.c174_counterexamples`
* `Verif.Replay.Demo.c175_counterexamples`
* `Verif.Replay.c174_complete`
* `Verif.Replay.c174_replay_partial`
* `Verif.Replay.c175_kept_partial`
* `Verif.Replay.c175_verified`
* `Verif.Rpy.c42_authority`
* `Verif.Rpy.c42_history`
* `Verif.Rpy.c42_notice`
* `Verif.Rpy.c42_parts_add_up`
* `Verif.Rpy.c42_records`
* `Verif.Rpy.c42_refused`
* `Verif.Rpy.c42_shared_notice`
* `Verif.Rpy.c43_clean_up_raises`
* `Verif.Rpy.c43_couples_partial`
* `Verif.Rpy.c43_escrow_erases`
* `Verif.Rpy.c43_groups_ordered`
* `Verif.Rpy.c43_groups_partial`
* `Verif.Rpy.c43_later_accepted`
* `Verif.Rpy.c43_later_group_accepted`
* `Verif.Rpy.c43_notice_erases`
* `Verif.Rpy.c43_notice_goes_back`
* `Verif.Rpy.c43_old_keys_lower_bar`
* `Verif.Ser.c125_made_accepted`
* `Verif.Ser.c125_made_json`
* `Verif.Ser.c125_made_verifies`
* `Verif.Ser.c126_commits`
* `Verif.Ser.c126_commits_json`
* `Verif.Ser.c126_commits_native`
* `Verif.Ser.c126_determines`
* `Verif.Ser.c127_fields`
* `Verif.Ser.c129_accepted_right`
* `Verif.Ser.c129_made_read_back`
* `Verif.Ser.c129_read_back`
* `Verif.Sub.c178_sets_partial`
* `Verif.Sub.c179_branch`
* `Verif.Sub.c180_cesr`
* `Verif.Sub.c180_cesr_lost`
* `Verif.Tel.DemoTel.c55_superseded_seal`
* `Verif.Tel.DemoTel.c57_foreign_issuance`
* `Verif.Tel.DemoTel.c57_foreign_revocation`
* `Verif.Tel.DemoTel.c58_forked_after_restart`
* `Verif.Tel.DemoTel.c58_squatted`
* `Verif.Tel.DemoTel.c59_rotation_forgotten`
* `Verif.Tel.DemoTel.c60_backers_never`
* `Verif.Tel.DemoTel.c60_own_dropped`
* `Verif.Tel.DemoTel.c60_sibling_dropped`
* `Verif.Tel.DemoTel.c60_wrong_seal_reported`
* `Verif.Tel.DemoTel.c60_wrong_seal_sticks`
* `Verif.Tel.DemoTel.c61_backers_bypassed`
* `Verif.Tel.DemoTel.c61_one_backer_twice`
* `Verif.Tel.DemoTel.c62_own_credential_revoked`
* `Verif.Tel.c55_entries_sealed`
* `Verif.Tel.c55_one_issuer`
* `Verif.Tel.c55_registries`
* `Verif.Tel.c55_unsealed_refused`
* `Verif.Tel.c56_append_only`
* `Verif.Tel.c56_reported`
* `Verif.Tel.c56_revoked_forever`
* `Verif.Tel.c57_one_issuer_partial`
* `Verif.Tel.c58_gapless`
* `Verif.Tel.c58_kinds`
* `Verif.Tel.c58_registry_chain_partial`
* `Verif.Tel.c59_back_to_inception`
* `Verif.Tel.c59_backerless`
* `Verif.Tel.c59_unrotated_partial`
* `Verif.Tel.c60_accepted_partial`
* `Verif.Tel.c60_waits`
* `Verif.Tel.c61_backed_partial`
* `Verif.Tel.c62_own_partial`
* `Verif.Tel.c62_source`
* `Verif.TelRep.Demo.c232_foreign_revocation_lost`
* `Verif.TelRep.Demo.c232_unbacked_sent`
* `Verif.TelRep.Demo.c232_wrong_seal_sent`
* `Verif.TelRep.Demo.c233_known_credential`
* `Verif.TelRep.c232_answered`
* `Verif.TelRep.c232_replayed_backed_partial`
* `Verif.TelRep.c232_replayed_partial`
* `Verif.TelRep.c233_registry`
* `Verif.Thold.c10_numeric`
* `Verif.Thold.c10_zero_never`
* `Verif.Thold.c11_all_sign`
* `Verif.Thold.c11_weighted`
* `Verif.Thold.c12_monotone_partial`
* `Verif.Thold.c12_not_monotone`
* `Verif.Thold.c12_numeric_append`
* `Verif.Thold.c13_numeric_repeats`
* `Verif.Thold.c13_set_only_partial`
* `Verif.Thold.c14_above_one`
* `Verif.Thold.c14_limen_roundtrip`
* `Verif.Thold.c14_no_clauses`
* `Verif.Thold.c14_numeric_roundtrip`
* `Verif.Thold.c14_same_satisfaction`
* `Verif.Thold.c14_sith_roundtrip`
* `Verif.Thold.c14_sith_wellFormed`
* `Verif.Thold.c15_ample_fault`
* `Verif.Thold.c15_quorums_intersect`
* `Verif.Tsn.c228_own_backer`
* `Verif.Tsn.c228_own_registry`
* `Verif.Tsn.c228_saved_partial`
* `Verif.Tsn.c228_untrusted`
* `Verif.Tsn.c228_untrusted_credential`
* `Verif.Tsn.c229_last_saved`
* `Verif.Tsn.c229_others`
* `Verif.Tsn.c229_registry_partial`
* `Verif.Tsn.c230_kept`
* `Verif.Tsn.c230_left`
* `Verif.Tsn.c230_signatures`
* `Verif.Tsn.c230_taken_partial`
* `Verif.Tsn.c231_asks_events`
* `Verif.Vry.DemoVry.c65_foreign_event`
* `Verif.Vry.DemoVry.c65_foreign_registry`
* `Verif.Vry.DemoVry.c66_revoked_accepted`
* `Verif.Vry.DemoVry.c69_anchor_replaced`
* `Verif.Vry.c63_accepted_iff`
* `Verif.Vry.c63_effect`
* `Verif.Vry.c63_kept`
* `Verif.Vry.c63_saved`
* `Verif.Vry.c64_ranked`
* `Verif.Vry.c64_wellFounded`
* `Verif.Vry.c65_issued_partial`
* `Verif.Vry.c65_sealed`
* `Verif.Vry.c66_revoked_edge_partial`
* `Verif.Vry.c67_arrival`
* `Verif.Vry.c67_not_lost`
* `Verif.Vry.c67_saved`
* `Verif.Vry.c68_indices`
* `Verif.Vry.c69_anchor_delivered_partial`
* `Verif.Watch.c194_duplicity`
* `Verif.Watch.c194_messages`
* `Verif.Watch.c195_others`
* `Verif.Watch.c195_update`
* `Verif.Watch.c196_false_alarm`
* `Verif.Watch.c196_honest_partial`
* `Verif.Web.c234_same_partial`
* `Verif.Web.c235_flushed`
* `Verif.Web.c235_kept_partial`
* `Verif.Web.c235_lost`
* `Verif.Web.c235_reopens`
* `Verif.Web.c235_unpack`
* `Verif.Web.c236_refines_partial`
* `Verif.Web.c236_same_partial`
* `Verif.Web.c239_append_lost`
* `Verif.Web.c239_append_same`
* `Verif.Web.c239_kept_partial`
* `Verif.Web.c239_mended`
* `Verif.Web.c239_rem_lost`
* `Verif.Web.c240_same`
* `Verif.Web.c241_back_partial`
* `Verif.Web.c241_count_partial`
* `Verif.Web.c241_last_back_partial`
* `Verif.Web.c242_all_partial`
* `Verif.Web.c242_last_partial`
* `Verif.Web.c243_last_partial`
* `Verif.Web.c244_kept_partial`

## Quot.sound, propext

* `Verif.Agt.c208_complete`
* `Verif.Agt.c208_delegated`
* `Verif.Agt.c208_no_endpoint`
* `Verif.Agt.c208_shared`
* `Verif.Agt.c210_http`
* `Verif.Agt.c210_http_order`
* `Verif.Agt.c212_done`
* `Verif.Agt.c212_noticer`
* `Verif.B64.c01_int_width_zero`
* `Verif.B64.c02_b2_short`
* `Verif.Bsr.c162_behind`
* `Verif.Bsr.c164_prior`
* `Verif.Bsr.c164_taken`
* `Verif.Bsr.c168_refused`
* `Verif.Conf.c237_interrupted`
* `Verif.Conf.c237_last_partial`
* `Verif.Ctr.c81_v1_key_error`
* `Verif.Ctr.c81_v2_long_forms`
* `Verif.Ctr.c83_refused`
* `Verif.Db.c240_nested_keys`
* `Verif.Db.c36_overflow`
* `Verif.Db.c37_nested_keys`
* `Verif.Db.c37_spec_local`
* `Verif.Db.c38_append_repeats`
* `Verif.Db.c38_empty_item`
* `Verif.Db.c38_item`
* `Verif.Db.c38_nested_keys`
* `Verif.Db.c39_dot_key`
* `Verif.Db.c39_numbered_put`
* `Verif.Db.c39_repeated`
* `Verif.Db.c40_kept`
* `Verif.Db.c41_dup_starts_above`
* `Verif.Db.c41_missing_raises`
* `Verif.Db.c52_map`
* `Verif.Ends.c213_authorised`
* `Verif.Ends.c213_http`
* `Verif.Ends.c213_scheme_partial`
* `Verif.Ends.c213_url`
* `Verif.Ends.c213_urls`
* `Verif.Ends.c214_cut`
* `Verif.Ends.c215_authorised`
* `Verif.Ends.c215_locations`
* `Verif.Ends.c215_log`
* `Verif.Ends.c215_made`
* `Verif.Ends.c215_own`
* `Verif.Ends.c216_authorised_partial`
* `Verif.Ends.c216_raises`
* `Verif.Fwd.c217_direct`
* `Verif.Fwd.c217_no_attachment`
* `Verif.Fwd.c217_reachable`
* `Verif.Fwd.c217_scheme`
* `Verif.Fwd.c217_transferable`
* `Verif.Fwd.c218_sent`
* `Verif.Fwd.c218_stops`
* `Verif.Fwd.c219_delivered_partial`
* `Verif.Fwd.c219_duplicates`
* `Verif.Fwd.c219_first_role`
* `Verif.Fwd.c219_oversize`
* `Verif.Fwd.c219_relayed`
* `Verif.Fwd.c219_tcp`
* `Verif.Fwd.c220_always`
* `Verif.Fwd.c220_introduced`
* `Verif.Grp.Demo.c137_other`
* `Verif.Grp.Demo.c138_crash`
* `Verif.Grp.Demo.c138_raise`
* `Verif.Grp.Demo.c138_two`
* `Verif.Grp.Demo.c141_crash`
* `Verif.Grp.Demo.c143_other`
* `Verif.Grp.c137_stable`
* `Verif.Grp.c142_no_publisher`
* `Verif.Grp.c143_counselor`
* `Verif.Hand.c148_fits`
* `Verif.Hand.c149_refused_partial`
* `Verif.Hand.c149_replayed`
* `Verif.Hand.c149_v1_ignored`
* `Verif.Hand.c150_couples_lost`
* `Verif.Hand.c150_couples_partial`
* `Verif.Hand.c150_group`
* `Verif.Http.c200_messages_partial`
* `Verif.Http.c200_partition`
* `Verif.Idr.c78_test_codes`
* `Verif.Iss.c155_complete`
* `Verif.Krm.c95_coverage`
* `Verif.Krm.c95_holes`
* `Verif.Krm.c98_at_once`
* `Verif.Krm.c98_restart`
* `Verif.Krm.c98_takes_effect_partial`
* `Verif.Mad.Demo.c118_counterexample`
* `Verif.Mad.Demo.c118_other_saids`
* `Verif.Mad.Demo.c119_counterexamples`
* `Verif.Mad.Demo.c121_counterexample`
* `Verif.Mad.Demo.c122_counterexample`
* `Verif.Mad.Demo.c122_lenient`
* `Verif.Mad.c117_serialized`
* `Verif.Mad.c122_checked`
* `Verif.Mad.c124_checked`
* `Verif.Matter.c03_make_keeps`
* `Verif.Matter.c44_bexter_refuses`
* `Verif.Matter.c44_no_escape_loses`
* `Verif.Mbx.Demo.c109_gap`
* `Verif.Mbx.Demo.c109_hidden`
* `Verif.Mbx.Demo.c109_jammed`
* `Verif.Mbx.Demo.c109_reused`
* `Verif.Mbx.Demo.c110_lost`
* `Verif.Mbx.Demo.c110_poisoned`
* `Verif.Mbx.Demo.c111_twice_crash`
* `Verif.Mbx.Demo.c111_twice_gap`
* `Verif.Mbx.c113_found_partial`
* `Verif.Mbx.c113_kept`
* `Verif.Mbx.c113_own`
* `Verif.Mbx.c113_starved`
* `Verif.Mgr.DemoMgr.c70_skips`
* `Verif.Mgr.DemoMgr.c71_code_stuck`
* `Verif.Mgr.DemoMgr.c71_ingest_end`
* `Verif.Mgr.DemoMgr.c72_erased`
* `Verif.Mgr.DemoMgr.c72_shared`
* `Verif.Mgr.DemoMgr.c73_kept_once`
* `Verif.Mgr.DemoMgr.c74_ingest_plain`
* `Verif.Mgr.DemoMgr.c74_later_plain`
* `Verif.Mgr.DemoMgr.c74_refused_used`
* `Verif.Mgr.DemoMgr.c74_same_unchecked`
* `Verif.Mgr.DemoMgr.c74_seed_alone`
* `Verif.Mgr.DemoMgr.c75_incept_blocked`
* `Verif.Mgr.DemoMgr.c75_move_stuck`
* `Verif.Mgr.DemoMgr.c75_rotate_blocked`
* `Verif.Mgr.DemoMgr.c75_salt_lost`
* `Verif.Mgr.DemoMgr.c75_update_mixed`
* `Verif.Mgr.c70_revealed_partial`
* `Verif.Mgr.c72_across_partial`
* `Verif.Mgr.c74_wrong_seed`
* `Verif.Mux.Demo.c144_other`
* `Verif.Mux.c144_approved_partial`
* `Verif.Mux.c145_all_partial`
* `Verif.Mux.c145_stored`
* `Verif.Mux.c146_tells`
* `Verif.Mux.c146_told`
* `Verif.Note.c204_tampered`
* `Verif.Note.c206_delivered_partial`
* `Verif.Note.c206_notices`
* `Verif.Note.c206_push`
* `Verif.Oobi.c181_held_partial`
* `Verif.Oobi.c182_result`
* `Verif.Oobi.c183_settled`
* `Verif.Oobi.c183_stuck`
* `Verif.Oobi.c184_schema`
* `Verif.Oobi.c185_alias_partial`
* `Verif.Oobi.c186_multi`
* `Verif.Org.c189_dot`
* `Verif.Org.c191_signed_partial`
* `Verif.Org.c191_swapped`
* `Verif.Org.c191_unsigned`
* `Verif.Org.c192_cut_partial`
* `Verif.Org.c193_continued`
* `Verif.Prs.c84_oversize`
* `Verif.Prs.c84_smell_local`
* `Verif.Rct.c54_waits`
* `Verif.Reg.c225_not_again`
* `Verif.Reg.c225_not_unissued`
* `Verif.Reg.c226_no_backers`
* `Verif.Reg.c227_issue_partial`
* `Verif.Reg.c227_restarted`
* `Verif.Reg.c227_revoke_fails`
* `Verif.Reg.c227_rotate_fails`
* `Verif.Sch.c238_agree`
* `Verif.Sch.c238_found`
* `Verif.Sch.c238_kind_set`
* `Verif.Sch.c238_made`
* `Verif.Sch.c238_one`
* `Verif.Ser.Demo.c126_said_not_all`
* `Verif.Ser.c128_prefix`
* `Verif.Ser.c129_stream`
* `Verif.Sub.c177_map`
* `Verif.Sub.c178_nested`
* `Verif.Sub.c178_other_sep`
* `Verif.Sub.c179_sets`
* `Verif.Sub.c180_b64_partial`
* `Verif.Sub.c180_b64_refused`
* `Verif.TelRep.c232_missing`
* `Verif.Thold.c15_ample`
* `Verif.Thold.c15_ample_choice`
* `Verif.Tsn.Demo.c228_not_controller`
* `Verif.Tsn.Demo.c228_not_issuer`
* `Verif.Tsn.Demo.c229_goes_back`
* `Verif.Tsn.Demo.c230_given_up`
* `Verif.Tsn.Demo.c231_not_controller`
* `Verif.Tsn.c230_told`
* `Verif.Tsn.c231_asks_controller`
* `Verif.Tsn.c231_asks_registry`
* `Verif.Tsn.c231_asks_source`
* `Verif.Web.Demo.c234_append_neighbour`
* `Verif.Web.Demo.c234_empty_value`
* `Verif.Web.Demo.c235_lost_case`
* `Verif.Web.Demo.c235_not_cleared_case`
* `Verif.Web.Demo.c236_last_separator`
* `Verif.Web.Demo.c236_nested_keys`
* `Verif.Web.Demo.c239_changed`
* `Verif.Web.Demo.c239_half_append`
* `Verif.Web.Demo.c243_nested_keys`
* `Verif.Web.Demo.c243_separator`
* `Verif.Web.Demo.c244_lost`
* `Verif.Web.Demo.c244_stale`
* `Verif.Web.c234_empty_key`
* `Verif.Web.c235_not_cleared`
* `Verif.Web.c239_marked`
* `Verif.Web.c241_all_same`
* `Verif.Web.c241_missing`
* `Verif.Web.c241_nested_keys`
* `Verif.Web.c242_all_same`
* `Verif.Web.c242_same`
* `Verif.Web.c242_separator`
* `Verif.Web.c243_same`
* `Verif.Web.c244_closed`
* `Verif.Web.c244_reads_partial`

## none

* `Verif.Agt.c212_unknown`
* `Verif.Conf.c237_closed`
* `Verif.Mgr.DemoMgr.c72_same_path`
* `Verif.Oobi.c187_statuses`
* `Verif.Sub.c180_b64_empty`

## propext

* `Verif.Agt.c208_catchup`
* `Verif.Agt.c209_order`
* `Verif.Agt.c212_noticer_none`
* `Verif.B64.c01_alphabet`
* `Verif.Conf.Demo.c237_failed_put_case`
* `Verif.Conf.Demo.c237_human_not_read`
* `Verif.Conf.c237_during_last`
* `Verif.Conf.c237_failed_put`
* `Verif.Db.c52_empty_key`
* `Verif.Ends.c215_all_roles`
* `Verif.Ends.c215_misattributed`
* `Verif.Ends.c215_unknown`
* `Verif.Ends.c216_witness`
* `Verif.Fwd.c217_config`
* `Verif.Fwd.c218_cut`
* `Verif.Fwd.c218_nobody`
* `Verif.Fwd.c218_partial`
* `Verif.Fwd.c218_waits`
* `Verif.Fwd.c218_witness`
* `Verif.Fwd.c219_no_attachment`
* `Verif.Fwd.c219_own_mailbox`
* `Verif.Fwd.c219_queued`
* `Verif.Fwd.c219_wrapped`
* `Verif.Fwd.c219_wrapped_witness`
* `Verif.Fwd.c220_transferable`
* `Verif.Grp.c137_complete`
* `Verif.Http.c200_binary`
* `Verif.Http.c200_other_kind`
* `Verif.Krm.Demo.c98_drift_kept`
* `Verif.Krm.Demo.c98_left_over`
* `Verif.Krm.c95_refused`
* `Verif.Krm.c98_refused`
* `Verif.Matter.c03_special_no_text_form`
* `Verif.Matter.c07_text_not_shortage`
* `Verif.Matter.c08_malleable`
* `Verif.Mbx.Demo.c112_anyone`
* `Verif.Mbx.c112_address`
* `Verif.Mux.Demo.c144_attached`
* `Verif.Mux.Demo.c145_blocked`
* `Verif.Mux.Demo.c145_crash`
* `Verif.Note.c203_crash_add`
* `Verif.Note.c203_crash_rem`
* `Verif.Note.c204_removed_silently`
* `Verif.Note.c206_no_topic`
* `Verif.Note.c207_killed_by_collapse`
* `Verif.Oobi.c181_dropped`
* `Verif.Oobi.c182_again`
* `Verif.Oobi.c182_old`
* `Verif.Oobi.c183_foreign`
* `Verif.Oobi.c183_unmatched`
* `Verif.Oobi.c183_untyped`
* `Verif.Oobi.c184_silent`
* `Verif.Oobi.c185_hijacked`
* `Verif.Oobi.c185_unasked`
* `Verif.Org.c188_id`
* `Verif.Org.c188_other`
* `Verif.Org.c189_continued`
* `Verif.Org.c189_empty`
* `Verif.Org.c189_id`
* `Verif.Org.c192_index`
* `Verif.Org.c192_lost`
* `Verif.Org.c192_torn`
* `Verif.Prs.c97_cold`
* `Verif.Sch.Demo.c238_changed`
* `Verif.Sch.Demo.c238_kind_set_case`
* `Verif.Sch.Demo.c238_other_bytes`
* `Verif.Sch.c238_addressed`
* `Verif.Sch.c238_resolved`
* `Verif.Sub.c176_counterexamples`
* `Verif.Sub.c176_keys`
* `Verif.Sub.c177_refused`
* `Verif.Sub.c179_no_topive`
* `Verif.Sub.c180_cesr_refused`
* `Verif.Sub.c180_records_class`
* `Verif.Sub.c180_records_inside`
* `Verif.Sub.c180_records_partial`
* `Verif.Sub.c180_records_unknown`
* `Verif.TelRep.c233_credential_never`
* `Verif.Watch.c194_earlier`
* `Verif.Watch.c195_no_answer`
* `Verif.Watch.c195_silent`
* `Verif.Watch.c195_threshold`
* `Verif.Watch.c196_case`
