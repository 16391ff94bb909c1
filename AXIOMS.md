# Axioms used by the theorems of MANIFEST.json

Output of `#print axioms`, grouped.  Regenerate after changes (lake env lean on a file with one `#print axioms` per theorem).

## Classical.choice, Quot.sound, propext (434 theorems)

`Concord.Protocol.agreement_same_view`, `Concord.Protocol.agreement_partial`, `Concord.Protocol.executed_agreement_partial`, `Concord.Protocol.commit_has_quorum`, `Concord.Protocol.agreement_same_view_with_crashes`, `Concord.Protocol.no_equivocation_with_crashes`, `Concord.Protocol.agreement_with_crashes_partial`, `Concord.Protocol.agreement_with_stored_view_partial`, `Concord.Protocol.executed_agreement_with_crashes_partial`, `Concord.Protocol.restart_regress`, `Concord.VC.fast_commit_survives`, `Concord.VC.slow_commit_survives_f1`, `Concord.VC.slow_commit_survives_partial`, `Concord.VC.computeRestrictions_perm_partial`, `Concord.VC.calcLB_perm`, `Concord.VC.computeRestrictions_lookup`, `Concord.VC.computeRestrictions_rule_partial`, `Concord.VC.calcLB_vouched`, `Concord.VC.calcLB_honest`, `Verif.VCBytes.validate_sound`, `Verif.VCBytes.validate_complete`, `Verif.VCBytes.validate_of_build`, `Verif.VCBytes.iterate_accepted`, `Verif.VCBytes.goToAtLeast_accepted`, `Verif.VCBytes.wrap_oob`, `Concord.Window.window_is_map`, `Concord.Window.read_gives_last_write`, `Concord.Window.read_fresh`, `Concord.Cert.complete_iff_quorum`, `Concord.Cert.full_iff_all`, `Concord.Cert.quorum_unique`, `Concord.Cert.bestCorrectMsg_supported`, `Concord.Cert.bestCorrectMsg_exists`, `Concord.Cert.inconsistent_means_conflict`, `Concord.Cert.addMsg_kept_iff`, `Concord.Cert.stored_is_first`, `Concord.Cert.self_required`, `Concord.Cert.self_complete_iff`, `Concord.Cert.self_quorum_completes`, `Concord.Cert.self_complete_quorum_partial`, `Concord.Cert.self_double_count`, `Concord.Collector.complete_is_verified`, `Concord.Collector.verify_distinct`, `Concord.Collector.built_from_quorum`, `Concord.Collector.received_quorum_partial`, `Concord.Collector.one_signer_forges`, `Concord.Collector.collector_accepts_forgery`, `Concord.Collector.enough_shares`, `Concord.Collector.no_missed_trigger`, `Concord.Collector.processing_has_job`, `Concord.Collector.progress_if_own_ids`, `Verif.Exec.in_order`, `Verif.Exec.each_batch_once`, `Verif.Exec.crash_safe_partial`, `Verif.Exec.no_crash_safe`, `Verif.Exec.calls_of_finished_partial`, `Verif.Exec.recovery_never_aborts`, `Verif.Exec.recovers`, `Verif.Exec.repeated_only_after_eviction`, `Verif.Exec.executed_again_only_after_eviction_partial`, `Verif.Exec.within_batch_partial`, `Verif.Exec.bridge_hasReply`, `Verif.Exec.bridge_store`, `Verif.Clients.pending_bounded`, `Verif.Clients.replies_bounded`, `Verif.Clients.admitted_iff`, `Verif.Clients.clients_isolated`, `Verif.Clients.reply_retained`, `Verif.Clients.answered_has_reply`, `Verif.Clients.restart_keeps_answers`, `Verif.Clients.earliest_correct`, `Verif.PP.built_accepted`, `Verif.PP.unsigned_batch_bound`, `Verif.PP.signed_batch_bound_partial`, `Verif.PP.same_digest_different_requests`, `Verif.PP.equivocation`, `Verif.PP.renumbered`, `Verif.PP.wrapped_length_oob`, `Verif.PP.own_id_aborts`, `Verif.Client.quorum_partial`, `Verif.Client.honest_result_partial`, `Verif.Client.sent_unconditional`, `Verif.Client.one_faulty_reply_decides`, `Verif.Client.honest_result_for_safe_quorums_partial`, `Verif.Time.same_time`, `Verif.Time.later_batch_later_time`, `Verif.Time.time_is_proposed`, `Verif.Time.never_aborts`, `Verif.Time.accepted_iff`, `Verif.Time.clocks_close`, `Verif.Cron.periodic_runs`, `Verif.Cron.replicas_agree`, `Verif.Cron.engine_never_runs_periodic`, `Verif.PreExec.complete_sound_partial`, `Verif.PreExec.cancel_sound_partial`, `Verif.PreExec.agreement_completes`, `Verif.PreExec.no_abort`, `Verif.PreExec.hash_binds`, `Verif.PreExec.sigs_roundtrip`, `Verif.PreExec.honest_result_accepted`, `Verif.Smt.root_is_contents`, `Verif.Smt.root_history_independent`, `Verif.Smt.root_binds_values_partial`, `Verif.Smt.root_does_not_bind_key`, `Verif.Smt.root_does_not_bind_presence`, `Verif.Smt.old_versions_readable`, `Verif.Smt.update_keeps_old`, `Verif.Smt.stale_exact`, `Verif.Smt.prune_leaves_no_garbage`, `Verif.Kvbc.get_exact`, `Verif.Kvbc.get_pruned`, `Verif.Kvbc.latest_never_wrong`, `Verif.Kvbc.latest_exact`, `Verif.Kvbc.multiGetLatest_eq`, `Verif.Kvbc.no_abort`, `Verif.Kvbc.prev_entry`, `Verif.Kvbc.prevVersion_is_prev`, `Verif.Kvbc.merkle_get_exact`, `Verif.Kvbc.merkle_get_pruned`, `Verif.Kvbc.merkle_latest_never_wrong`, `Verif.Kvbc.merkle_latest_exact`, `Verif.Kvbc.immutable_exact`, `Verif.Kvbc.prune_preserves_latest`, `Verif.Kvbc.prune_preserves_get`, `Verif.Kvbc.merkle_prune_preserves_latest`, `Verif.Kvbc.merkle_prune_preserves_get`, `Verif.Kvbc.immutable_prune`, `Verif.Kvbc.undo`, `Verif.Kvbc.merkle_undo`, `Verif.Kvbc.immutable_undo`, `Verif.Chain.raw_block_available`, `Verif.Chain.added_block_reads_back`, `Verif.Chain.raw_block_stable`, `Verif.Chain.parent_digest_of_predecessor`, `Verif.Chain.restart_invisible`, `Verif.Chain.same_digest_same_history`, `Verif.Chain.serRaw_inj`, `Verif.Chain.digest_binds`, `Verif.Chain.chain_binds`, `Verif.Chain.transfer_safe`, `Verif.Chain.transfer_links`, `Verif.Chain.transfer_complete`, `Verif.Chain.exTransfer_right`, `Verif.Cmf.cmf_roundtrip`, `Verif.Cmf.cmf_roundtrip_at`, `Verif.Cmf.cmf_prefix_free`, `Verif.Cmf.cmf_injective`, `Verif.Cmf.cmf_decode_total`, `Verif.Cmf.cmf_decode_reencode`, `Verif.Cmf.cmf_small_roundtrip`, `Verif.Rvt.never_aborts`, `Verif.Rvt.history_independent`, `Verif.Rvt.same_as_rebuilt`, `Verif.Rvt.empty_again`, `Verif.Rvt.root_value`, `Verif.Rvt.nodes_exact`, `Verif.Rvt.min_max_ids`, `Verif.Rvt.out_of_order_aborts`, `Verif.Rvt.group_value`, `Verif.Rvt.group_members`, `Verif.Rvt.group_ids`, `Verif.Rvt.group_ids_any`, `Verif.Rvt.one_change_detected`, `Verif.Rvt.same_sum_undetected`, `Verif.Rvt.ex_meets`, `Verif.Lru.never_stuck_and_bounded`, `Verif.Lru.get_last_put`, `Verif.Lru.retained_after_put`, `Verif.Lru.retained_after_get`, `Verif.Lru.evicted`, `Verif.Replicas.kinds_exact`, `Verif.Replicas.operator_external`, `Verif.Replicas.service_is_external`, `Verif.Replicas.replica_is_external`, `Verif.Trs.oldestExt_spec`, `Verif.Trs.find_correct`, `Verif.Trs.readEG_correct`, `Verif.Trs.afterStored_exact`, `Verif.Trs.stream_exact`, `Verif.Trc.hash_order`, `Verif.Trc.hash_binds`, `Verif.Trc.binding_of_noColl`, `Verif.Trc.delivered_from_block`, `Verif.Trc.delivered_from_group`, `Verif.Trc.delivered_agreed`, `Verif.Trc.no_false_alarm`, `Verif.Trc.ends_only_if_honest`, `Verif.Trc.answering_delivers`, `Verif.Trc.crash_only_by_faulty`, `Verif.Trc.Examples.run_reachable`, `Verif.Trc.Examples.answering_example`, `Verif.Meta.metadata_refines`, `Verif.Meta.starts`, `Verif.Meta.crash_undoes_transaction`, `Verif.Meta.transaction_takes_effect`, `Verif.Meta.sync_survives_power`, `Verif.Meta.failed_read_erases`, `Verif.Meta.inner_sync_lost`, `Verif.St.log_justified`, `Verif.St.chosen_is_vouched`, `Verif.St.blocks_true`, `Verif.St.complete_has_all`, `Verif.St.pages_true`, `Verif.St.Ex.ex_meets`, `Verif.Digest.digests_share_iff`, `Verif.Digest.vote_fixes_upper`, `Verif.V4.v4_reads`, `Verif.V4.v4_chain`, `Verif.V4.v4_add_ok`, `Verif.V4.v4_add_read_back`, `Verif.V4.v4_link_same`, `Verif.V4.v4_st_refused`, `Verif.V4.v4_recovered`, `Verif.V4.v4_recovery_completes`, `Verif.V4.v4_sync`, `Verif.V4.v4_trim`, `Verif.V4.v4_stale`, `Verif.Rsi.rsi_get`, `Verif.Rsi.rsi_read_back`, `Verif.Rsi.rsi_restart_loses`, `Verif.Rsi.rsi_load_overruns`, `Verif.Req.client_request_let_in`, `Verif.Req.request_fills_message`, `Verif.Req.request_signed`, `Verif.Req.validate_total`, `Verif.Req.receive_total`, `Verif.Req.client_batch_let_in`, `Verif.Req.batch_outcome`, `Verif.Req.batch_is_pieces`, `Verif.Req.batch_signed`, `Verif.Req.preprocess_signed_partial`, `Verif.Req.forged_internal`, `Verif.Req.preprocessed_flag_unsigned`, `Verif.Req.empty_signed_refused`, `Verif.Req.batch_oob`, `Verif.Req.batch_null`, `Verif.Keys.keys_follow_history_partial`, `Verif.Keys.restart_works`, `Verif.Keys.transfer_works`, `Verif.Keys.window_keys_agree_partial`, `Verif.Keys.live_replicas_agree`, `Verif.Keys.live_replicas_accept_alike`, `Verif.Keys.one_key_per_number`, `Verif.Keys.own_secret_matches_partial`, `Verif.Keys.own_key_follows_history_partial`, `Verif.Keys.restart_secret`, `Verif.Keys.restart_forgets_secret`, `Verif.Keys.restart_signs_with_old_key`, `Verif.Keys.crossed_exchanges_diverge`, `Verif.Keys.crash_loses_secret`, `Verif.Keys.client_installs_key`, `Verif.Keys.client_stops_replica`, `Verif.Keys.early_key`, `Verif.Keys.page_full`, `Verif.Keys.page_full_reachable`, `Verif.Keys.unknown_replica`, `Verif.Keys.garbage_stops_replicas`, `Verif.Keys.long_string_stops_replicas`, `Verif.Keys.transfer_aborts`, `Verif.Keys.empty_key_sent`, `Verif.Rp.load_returns_saved`, `Verif.Rp.checkpoint_is_picture`, `Verif.Rp.checkpoint_immutable`, `Verif.Rp.restart_restores`, `Verif.Rp.never_aborts`, `Verif.Rp.replicas_agree`, `Verif.Rp.fetch_answers`, `Verif.Rp.fetch_complete`, `Verif.Rp.correct_source_accepted`, `Verif.Rp.transfer_agrees`, `Verif.Rp.bad_chunk_number_faults`, `Verif.Ckpt.never_aborts`, `Verif.Ckpt.window`, `Verif.Ckpt.monotone`, `Verif.Ckpt.stable_reported`, `Verif.Ckpt.stable_justified_partial`, `Verif.Ckpt.super_justified_partial`, `Verif.Ckpt.collect_justified_partial`, `Verif.Ckpt.collect_justified`, `Verif.Ckpt.no_equivocation`, `Verif.Ckpt.forwards_received`, `Verif.Ckpt.stable_flag`, `Verif.Ckpt.signed_executed`, `Verif.Ckpt.restart_keeps`, `Verif.Ckpt.restart_resends`, `Verif.Ckpt.quorum_makes_stable`, `Verif.Ckpt.ro_collect_iff`, `Verif.Ckpt.ro_collect_justified`, `Verif.Ckpt.ro_agree`, `Verif.Ckpt.Ex.stable_two`, `Verif.Prune.accepted_iff`, `Verif.Prune.pruned_only_agreed`, `Verif.Prune.keeps_latest`, `Verif.Prune.exact_genesis`, `Verif.Prune.same_genesis`, `Verif.Prune.never_terminates`, `Verif.Prune.pruning_ends`, `Verif.Prune.replay_harmless`, `Verif.Prune.Ex.usual_accepted`, `Verif.Auth.key_custody`, `Verif.Auth.stop_custody`, `Verif.Auth.record_custody`, `Verif.Auth.unsigned_requests_do_not_interfere`, `Verif.Wedge.never_beyond_partial`, `Verif.Wedge.stop_in_force_partial`, `Verif.Wedge.no_stop_without_command_partial`, `Verif.Wedge.same_stop_partial`, `Verif.Wedge.passed_only_if_lifted_partial`, `Verif.Wedge.all_stop_partial`, `Verif.Wedge.one_vote_suffices`, `Verif.Wedge.unwedge_exact`, `Verif.Wedge.restart_keeps_partial`, `Verif.Wedge.reaches_stop_partial`, `Verif.Wedge.stop_missed`, `Verif.Wedge.beyond_missed_stop`, `Verif.Wedge.diverged`, `Concord.Leave.left_for_cause`, `Concord.Leave.view_for_cause`, `Concord.Leave.stays`, `Concord.Leave.asked_why`, `Concord.Leave.bad_batch_primary`, `Concord.Leave.no_running_ahead`, `Concord.Leave.active_quorum`, `Concord.Leave.complaints_genuine`, `Concord.Leave.complaints_act`, `Concord.Leave.catches_up`, `Concord.Leave.never_aborts`, `Concord.Leave.le_correct_iff`, `Concord.Leave.le_agreed_iff`, `Concord.Batch.fifo`, `Concord.Batch.nothing_lost_partial`, `Concord.Batch.proposed_once`, `Concord.Batch.seq_increasing`, `Concord.Batch.policy_limits`, `Verif.Wire.Ack.receive_iff`, `Verif.Wire.Ack.receive_safe`, `Verif.Wire.Slow.receive_iff`, `Verif.Wire.Slow.receive_safe`, `Verif.Wire.Missing.receive_iff`, `Verif.Wire.Missing.receive_safe`, `Verif.Wire.Share.receivePartial_iff`, `Verif.Wire.Share.receivePartial_safe`, `Verif.Wire.Share.receiveFull_iff`, `Verif.Wire.Share.receiveFull_safe`, `Verif.Wire.PartialProof.receive_iff`, `Verif.Wire.PartialProof.receive_safe`, `Verif.Wire.FullProof.receive_iff`, `Verif.Wire.FullProof.receive_safe`, `Verif.Wire.Ckpt.receive_iff`, `Verif.Wire.Ckpt.receive_safe`, `Verif.Wire.Ask.receive_iff`, `Verif.Wire.Ask.receive_safe`, `Verif.Wire.Ask.round_trip`, `Verif.Wire.Leave.receive_iff`, `Verif.Wire.Leave.receive_safe`, `Verif.Wire.Ready.receive_iff`, `Verif.Wire.Ready.receive_safe_iff`, `Verif.Wire.NewView.receive_iff`, `Verif.Wire.NewView.receive_safe_partial`, `Verif.Wire.NewView.receive_oob`, `Verif.Wire.Status.receive_iff`, `Verif.Wire.Status.receive_safe`, `Verif.Wire.Status.complaints_arrive`, `Verif.Wire.Status.viewChanges_arrive`, `Verif.Wire.Status.window_arrives`, `Verif.Wire.Restarting.heard_signed`, `Verif.Wire.Restarting.restart_when_all_ready`, `Verif.Wire.Proof.sound`, `Verif.Wire.Proof.accepts`, `Verif.Wire.Proof.honest_accepted`, `Verif.Wire.bug112_unsigned_proof`, `Verif.Wire.bug112_repeated`, `Verif.Wire.bug111_oob`, `Verif.Wire.Restarting.bug112_restart`, `Verif.Wire.Restarting.bug113_late_replica`, `Verif.Wire.Restarting.bug113_run`, `Verif.Wire.report_answered`, `Verif.Wire.primary_fills_gaps`, `Verif.Wire.primary_sends_no_more`, `Verif.Wire.behind_gets_checkpoint`, `Verif.Wire.older_gets_viewChange`, `Verif.Wire.waiting_gets_viewChanges`, `Verif.Wire.complaints_spread`, `Verif.Wire.handle_stops_iff`, `Verif.Wire.bug116_primary_stops`, `Verif.Wire.bug117_negative_view`, `Verif.Wire.bug118_overflow`, `Verif.Timers.history_right`, `Verif.Timers.history_armed`, `Verif.Timers.due_runs`, `Verif.Timers.evaluate_once`, `Verif.Timers.runs_due`, `Verif.Timers.one_shot_once`, `Verif.Timers.cancelled_never_runs`, `Verif.Timers.handles_new`, `Verif.Timers.recurring_spacing`, `Verif.Timers.cancel_in_callback_stops`, `Verif.Inbox.no_starvation`, `Verif.SeqGen.strictly_increasing`, `Verif.SeqGen.not_behind`, `Verif.SeqGen.restart_increasing`, `Verif.Layout.private_pages`, `Verif.Layout.transferred_pages`, `Verif.Layout.same_layout`, `Verif.Layout.early_use_ends`, `Verif.Layout.clients_fit`, `Verif.Layout.clients_own`, `Verif.Source.source_is_peer`, `Verif.Source.no_assertion`, `Verif.Source.good_source_comes`, `Verif.Source.good_source_first`, `Verif.Source.no_repetition`, `Verif.Source.silent_source_replaced`, `Verif.Source.request_to_new_source`, `Verif.Source.good_source_in_time`, `Verif.Source.primary_needs_support`, `Verif.Source.new_primary_not_preferred`, `Verif.Source.never_out_of_sources`, `Verif.Ticks.ticks_when_due`, `Verif.Ticks.one_timer_each`, `Verif.Ticks.generating_after_start`, `Verif.Ticks.nothing_after_stop`, `Verif.Ticks.at_most_one_queued`, `Verif.Ticks.asks_iff`, `Verif.Ticks.requests_alternate`, `Verif.Ticks.requests_arrive`, `Verif.Ticks.refused_once_never_again`, `Verif.Ticks.flood_silent`, `Verif.Pool.one_owner`, `Verif.Pool.alloc_gives`, `Verif.Pool.free_takes`, `Verif.Pool.counts`, `Verif.Pool.contexts`, `Verif.Pool.clear_wedged`

## Quot.sound, propext (178 theorems)

`Concord.Protocol.executed_committed`, `Concord.Protocol.executed_increasing`, `Concord.Protocol.agreement_fails_with_time_service`, `Concord.Protocol.agreement_fails_with_cut_range`, `Concord.Protocol.agreement_fails_with_shadow`, `Concord.Protocol.good_run_meets_hypotheses`, `Verif.Digest.agreement_fails_with_combined_votes`, `Concord.Protocol.executed_once_with_crashes`, `Concord.Protocol.good_crash_meets_hypotheses`, `Concord.Protocol.agreement_fails_with_restart`, `Concord.Protocol.stored_view_stops_the_run`, `Concord.VC.Examples.slow_commit_lost_with_shadow`, `Concord.VC.Examples.order_matters_with_shadow`, `Verif.VCBytes.addElements_succeed`, `Verif.VCBytes.checkElements_safe`, `Concord.Collector.one_share_stalls`, `Verif.Exec.no_gap`, `Verif.Exec.special_lost`, `Verif.Exec.stuck_forever`, `Verif.Exec.first_block_stuck`, `Verif.Exec.crash_example`, `Verif.Exec.recovers_example`, `Verif.Exec.duplicate_executed_twice`, `Verif.Exec.replay_executed_twice`, `Verif.Exec.internal_executed_twice`, `Verif.Clients.add_effect`, `Verif.Clients.answered_not_admitted`, `Verif.Clients.zero_seq_breaks`, `Verif.Clients.index_in_batch_aborts`, `Verif.Clients.evicted_readmitted`, `Verif.PP.iterator_matches_check`, `Verif.Client.toMofN_sound`, `Verif.Client.reply_lengths_oob`, `Verif.Client.reply_lengths_ok`, `Verif.Time.transferred_not_checked`, `Verif.Time.drift`, `Verif.Time.zero_eps_repeats`, `Verif.Time.not_documented_max`, `Verif.Time.exLog_fits`, `Verif.Cron.runs_iff`, `Verif.Cron.sched_after`, `Verif.Cron.expected_spaced`, `Verif.Cron.addEntry_sorted`, `Verif.Cron.remove_ok`, `Verif.Cron.transfer_diverges`, `Verif.Cron.no_persist_reruns`, `Verif.Cron.addEntry_keeps`, `Verif.Cron.exReg_good`, `Verif.PreExec.timer_never_decides`, `Verif.PreExec.deserSigs_no_oob`, `Verif.PreExec.valid_result_vouched`, `Verif.PreExec.good_reply_sig_in_bounds`, `Verif.PreExec.Examples.error_consensus_wild_pointer`, `Verif.PreExec.Examples.duplicate_hashes_cancel`, `Verif.PreExec.Examples.duplicate_hashes_never_cancel`, `Verif.Kvbc.multiGet_eq`, `Verif.Kvbc.iMultiGet_eq`, `Verif.Chain.exRun`, `Verif.Chain.exEvs_good`, `Verif.Chain.put_and_delete_breaks_the_chain`, `Verif.Chain.put_and_delete_merkle_aborts`, `Verif.Chain.immutable_rewrite_loses_raw_block`, `Verif.Chain.exTransfer`, `Verif.Chain.addRaw_spec`, `Verif.Chain.transfer_no_leftovers`, `Verif.Rvt.mem_levelNodes`, `Verif.Replicas.primary_once`, `Verif.Replicas.collectors_ok`, `Verif.Replicas.isCollector_iff`, `Verif.Replicas.every_backup_collects`, `Verif.Trs.overrun_only_if_full`, `Verif.Trs.stream_contiguous`, `Verif.Trs.live_complete`, `Verif.Trs.stream_never_aborts`, `Verif.Trs.overlap_waits_for_owed`, `Verif.Trs.newestExt_spec`, `Verif.Trc.Examples.pruned_example`, `Verif.Trc.Examples.out_of_range_example`, `Verif.Trc.Examples.type_confusion`, `Verif.Trc.Examples.one_server_aborts_client`, `Verif.Trc.Examples.one_server_ends_subscription`, `Verif.Trc.Examples.info_not_verified`, `Verif.Trc.Examples.pruning_mismatch_internal_error`, `Verif.Trc.Examples.resubscribe_uses_old_streams`, `Verif.Meta.nesting_wraps`, `Verif.Meta.last_rsi_refused`, `Verif.St.Ex.ex_transfer`, `Verif.St.Ex.heap_overflow`, `Verif.St.Ex.honest_source_refused`, `Verif.St.Ex.surplus_chunk_undefined`, `Verif.St.Ex.read_only_summary_aborts`, `Verif.St.Ex.page_number_unchecked`, `Verif.St.Ex.resent_page_aborts`, `Verif.St.Ex.block_zero_aborts`, `Verif.Digest.combination_eq_iff`, `Verif.Digest.votes_differ`, `Verif.Digest.vote_fixed`, `Verif.Digest.vote_moves`, `Verif.Digest.null_vote_moves`, `Verif.Digest.ideal_votes_reject`, `Verif.V4.v4_prune`, `Verif.V4.v4_multiGet`, `Verif.V4.v4_multiGetLatest`, `Verif.Rsi.rsi_slots`, `Verif.Rsi.rsi_none_ok`, `Verif.Rsi.rsi_first_reply_wrong`, `Verif.Rsi.rsi_resend_aborts`, `Verif.Req.unknown_type_aborts`, `Verif.Req.short_request_oob`, `Verif.Req.replica_id_oob`, `Verif.Rp.Ex.reexecution_diverges`, `Verif.Prune.disabled_keeps_all`, `Verif.Prune.Ex.usual_theorems`, `Verif.Auth.operator_only`, `Verif.Auth.own_records`, `Verif.Auth.verification_keys`, `Verif.Auth.stored_keys`, `Verif.Auth.unsigned`, `Verif.Auth.stop_exact`, `Verif.Auth.operator_recorded`, `Verif.Auth.action_custody`, `Verif.Auth.no_abort`, `Verif.Auth.replicas_agree_partial`, `Verif.Wedge.quorum_of_signers_partial`, `Verif.Wedge.scaling_lost`, `Verif.Wedge.install_stale`, `Verif.Wedge.callbacks_lost`, `Concord.Leave.view_grows`, `Concord.Batch.queue_accounting`, `Concord.Batch.batches_wellformed`, `Concord.Batch.built_when`, `Concord.Batch.no_equivocation_partial`, `Concord.Batch.no_equivocation_sync`, `Concord.Batch.never_aborts_partial`, `Concord.Batch.never_aborts_sync`, `Concord.Batch.sent_when_sync`, `Concord.Batch.proposes`, `Concord.Batch.Examples.good_run`, `Concord.Batch.Examples.good_duplicate`, `Concord.Batch.Examples.lost_request`, `Concord.Batch.Examples.pruned_batch`, `Concord.Batch.Examples.equivocates`, `Concord.Batch.Examples.stale_batch_aborts`, `Concord.Batch.Examples.stale_batch_aborts_view`, `Concord.Batch.Examples.good_threads`, `Concord.Batch.Examples.good_progress`, `Concord.Batch.Examples.good_fit`, `Verif.Wire.Ready.receive_oob`, `Verif.Wire.Restarting.restart_has_quorum_partial`, `Verif.Wire.Restarting.proof_has_quorum_partial`, `Verif.Wire.Restarting.restart_when_complete`, `Verif.Wire.Restarting.bug115_long_message`, `Verif.Wire.handle_length`, `Verif.Timers.quiet_evaluates`, `Verif.Timers.evaluate_no_outside`, `Verif.Timers.add_in_callback_stops`, `Verif.Inbox.exactly_once`, `Verif.Inbox.refused_only_when_full`, `Verif.Inbox.taken_when_room`, `Verif.Inbox.held_bounded`, `Verif.Inbox.idle_only_when_empty`, `Verif.SeqGen.never_aborts`, `Verif.SeqGen.restart_repeats`, `Verif.Layout.stray_page`, `Verif.Source.support_suffices`, `Verif.Source.chatty_source_stays`, `Verif.Source.no_retransmission_no_patience`, `Verif.Source.one_vote_takes_it`, `Verif.Source.first_primary_preferred`, `Verif.Ticks.requests_in_order`, `Verif.Ticks.primary_not_throttled`, `Verif.Handoff.in_order`, `Verif.Handoff.returns_after`, `Verif.Handoff.sync_first`, `Verif.Handoff.no_push_missed`, `Verif.Handoff.sync_returns`, `Verif.Handoff.stop_ends`, `Verif.Pool.longest_idle_first`

## none (5 theorems)

`Verif.Client.comparator_not_weak_order`, `Verif.Replicas.collectors_same`, `Verif.Trs.overrun_reported`, `Verif.Wedge.signs_without_stop`, `Verif.Layout.stray_exchange`

## propext (59 theorems)

`Verif.VCBytes.underflow_oob`, `Verif.VCBytes.complaint_oob`, `Verif.VCBytes.digest_oob`, `Verif.PP.typicalEnv_typical`, `Verif.Client.primary_only_trusts_one`, `Verif.Time.example_run`, `Verif.Cron.other_component`, `Verif.Cron.order`, `Verif.PreExec.short_signatures_accepted`, `Verif.PreExec.failed_reply_oob`, `Verif.PreExec.Examples.result_code_flipped`, `Verif.PreExec.Examples.error_record_shifted`, `Verif.PreExec.Examples.unknown_result_aborts`, `Verif.PreExec.Examples.bad_failed_signature_blames_primary`, `Verif.Rvt.wrong_removal_undetected`, `Verif.Rvt.two_changes_undetected`, `Verif.Lru.zero_capacity_undefined`, `Verif.Trs.got_prefix_of_pushed`, `Verif.Trs.nothing_lost`, `Verif.Trs.reader_race_aborts`, `Verif.Trs.find_pruned_aborts`, `Verif.Trs.gap_ids_repeat`, `Verif.Trs.live_gap_lost`, `Verif.Trs.BlocksExamples.skipped_block_lost`, `Verif.Trs.BlocksExamples.overrun_ends_ok`, `Verif.Trs.BlocksExamples.overrun_while_waiting_uncaught`, `Verif.Trs.BlocksExamples.block_zero_aborts`, `Verif.Trs.BlocksExamples.transition_skips_blocks`, `Verif.Trc.hash_agree`, `Verif.Meta.object_count_wraps`, `Verif.V4.Examples.recovery_loses_sequence_number`, `Verif.V4.Examples.failed_add_breaks_chain`, `Verif.V4.Examples.multiGet_unsorted_throws`, `Verif.V4.Examples.exact_limit_throws`, `Verif.Req.request_principal`, `Verif.Req.preprocess_null`, `Verif.Ckpt.Ex.diverged_stable`, `Verif.Ckpt.Ex.super_three`, `Verif.Ckpt.Ex.fast_example`, `Verif.Ckpt.Ex.super_before_stable`, `Verif.Ckpt.Ex.epoch_example`, `Verif.Prune.Ex.usual`, `Verif.Prune.Ex.half_done`, `Verif.Prune.Ex.double_prune_terminates`, `Verif.Prune.Ex.epoch_vote_prunes`, `Verif.Prune.Ex.hidden_by_bad`, `Verif.Auth.one_place`, `Verif.Auth.own_key_only_false`, `Verif.Wedge.install_lost`, `Concord.Leave.Examples.regular_ok`, `Concord.Leave.Examples.nothing_ok`, `Concord.Leave.Examples.bug102_non_primary_changes_view`, `Concord.Leave.Examples.bug103_stale_rotation`, `Concord.Leave.Examples.bug104_older_replaces_newer`, `Verif.Wire.Restarting.restart_by_message`, `Verif.Wire.Restarting.bug114_stale`, `Verif.Wire.Restarting.bug115_run`, `Verif.Handoff.stop_lost`, `Verif.Handoff.push_after_end_hangs`
