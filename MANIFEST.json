{
 "claims": [
  {
   "property": "C01",
   "status": "partial",
   "theorems": [
    "Concord.Protocol.agreement_same_view",
    "Concord.Protocol.agreement_partial",
    "Concord.Protocol.executed_agreement_partial",
    "Concord.Protocol.executed_committed",
    "Concord.Protocol.executed_increasing",
    "Concord.Protocol.commit_has_quorum",
    "Concord.Protocol.agreement_fails_with_time_service",
    "Concord.Protocol.agreement_fails_with_cut_range",
    "Concord.Protocol.agreement_fails_with_shadow",
    "Concord.Protocol.good_run_meets_hypotheses",
    "Verif.Digest.agreement_fails_with_combined_votes",
    "Concord.Protocol.agreement_same_view_with_crashes",
    "Concord.Protocol.no_equivocation_with_crashes",
    "Concord.Protocol.agreement_with_crashes_partial",
    "Concord.Protocol.agreement_with_stored_view_partial",
    "Concord.Protocol.executed_agreement_with_crashes_partial",
    "Concord.Protocol.executed_once_with_crashes",
    "Concord.Protocol.restart_regress",
    "Concord.Protocol.good_crash_meets_hypotheses",
    "Concord.Protocol.agreement_fails_with_restart",
    "Concord.Protocol.stored_view_stops_the_run"
   ],
   "note": "Agreement inside a view is proved for all configurations. Across views it is proved without the time service and for runs whose view entries satisfy GoodInstall; the full statement is false of the code, with machine-checked counterexample executions of the model for the time service, the shortened range and shadowed certificates. C01 takes votes as ideal; with the vote data the code really signs (digest_holder.hpp calcCombination) agreement fails: Verif.Digest.agreement_fails_with_combined_votes. With crashes: agreement inside a view and one digest per view and number of each replica hold with any crashes; across views additionally no crash may bring a replica back to a lower view, which the code allows (agreement_fails_with_restart)."
  },
  {
   "property": "C02",
   "status": "partial",
   "theorems": [
    "Concord.VC.fast_commit_survives",
    "Concord.VC.slow_commit_survives_f1",
    "Concord.VC.slow_commit_survives_partial",
    "Concord.VC.Examples.slow_commit_lost_with_shadow"
   ],
   "note": "Fast path proved; slow path proved for F<=1, and for every F when no invalid certificate repeats view+digest of a valid one. Without that the code loses the batch (F>=2): proved counterexample."
  },
  {
   "property": "C03",
   "status": "partial",
   "theorems": [
    "Concord.VC.computeRestrictions_perm_partial",
    "Concord.VC.calcLB_perm",
    "Concord.VC.Examples.order_matters_with_shadow"
   ],
   "note": "Needs that no invalid certificate shadows a valid one; counterexample otherwise."
  },
  {
   "property": "C04",
   "status": "proved",
   "theorems": [
    "Concord.VC.computeRestrictions_lookup",
    "Concord.VC.computeRestrictions_rule_partial"
   ],
   "note": "Iterator loop = look-up per sequence number, no assertion can fail on validated messages."
  },
  {
   "property": "C05",
   "status": "proved",
   "theorems": [
    "Concord.VC.calcLB_vouched",
    "Concord.VC.calcLB_honest",
    "Concord.VC.calcLB_perm"
   ],
   "note": ""
  },
  {
   "property": "C06",
   "status": "proved",
   "theorems": [
    "Verif.VCBytes.validate_sound",
    "Verif.VCBytes.validate_complete",
    "Verif.VCBytes.validate_of_build",
    "Verif.VCBytes.addElements_succeed",
    "Verif.VCBytes.iterate_accepted",
    "Verif.VCBytes.goToAtLeast_accepted",
    "Verif.VCBytes.checkElements_safe",
    "Verif.VCBytes.wrap_oob",
    "Verif.VCBytes.underflow_oob",
    "Verif.VCBytes.complaint_oob",
    "Verif.VCBytes.digest_oob"
   ],
   "note": "Byte-level model with 32-bit arithmetic. Accepted messages are exactly the well-formed ones; the counterexamples show that validation itself can read outside the buffer (32-bit wrap, underflow, complaint size, unvalidated sizeOfAllComplaints)."
  },
  {
   "property": "C07",
   "status": "proved",
   "theorems": [
    "Concord.Window.window_is_map",
    "Concord.Window.read_gives_last_write",
    "Concord.Window.read_fresh"
   ],
   "note": "Refinement of the ring buffer to a map for every sequence of calls; numbers unbounded (no uint16 index overflow)."
  },
  {
   "property": "C08",
   "status": "proved",
   "theorems": [
    "Concord.Window.window_is_map",
    "Concord.Window.read_gives_last_write"
   ],
   "note": "History part of the same refinement."
  },
  {
   "property": "C09",
   "status": "partial",
   "theorems": [
    "Concord.Cert.complete_iff_quorum",
    "Concord.Cert.full_iff_all",
    "Concord.Cert.quorum_unique",
    "Concord.Cert.bestCorrectMsg_supported",
    "Concord.Cert.bestCorrectMsg_exists",
    "Concord.Cert.inconsistent_means_conflict",
    "Concord.Cert.addMsg_kept_iff",
    "Concord.Cert.stored_is_first",
    "Concord.Cert.self_required",
    "Concord.Cert.self_complete_iff",
    "Concord.Cert.self_quorum_completes",
    "Concord.Cert.self_complete_quorum_partial",
    "Concord.Cert.self_double_count"
   ],
   "note": "Exact for certificates without a trusted own message. With a trusted and required own message (checkpoints) the code counts the own message twice when an equal peer message came first: exact behaviour proved, and the full property refuted by self_double_count."
  },
  {
   "property": "C10",
   "status": "partial",
   "theorems": [
    "Concord.Collector.complete_is_verified",
    "Concord.Collector.verify_distinct",
    "Concord.Collector.built_from_quorum",
    "Concord.Collector.received_quorum_partial",
    "Concord.Collector.one_signer_forges",
    "Concord.Collector.collector_accepts_forgery",
    "Concord.Collector.enough_shares",
    "Concord.Collector.no_missed_trigger",
    "Concord.Collector.processing_has_job",
    "Concord.Collector.progress_if_own_ids",
    "Concord.Collector.one_share_stalls"
   ],
   "note": "Proved for signatures the collector combines itself. For received combined signatures the EdDSA multisig verifier counts repeated records of one signer, so the full property is refuted (one_signer_forges); a share naming another signer stalls the collector (one_share_stalls)."
  },
  {
   "property": "C11",
   "status": "proved",
   "theorems": [
    "Verif.Exec.in_order",
    "Verif.Exec.no_gap",
    "Verif.Exec.each_batch_once"
   ],
   "note": "Model of executeNextCommittedRequests/executeRequestsInPrePrepareMsg; one batch per number is C01."
  },
  {
   "property": "C12",
   "status": "partial",
   "theorems": [
    "Verif.Exec.crash_safe_partial",
    "Verif.Exec.no_crash_safe",
    "Verif.Exec.calls_of_finished_partial",
    "Verif.Exec.recovery_never_aborts",
    "Verif.Exec.recovers",
    "Verif.Exec.special_lost",
    "Verif.Exec.stuck_forever",
    "Verif.Exec.first_block_stuck",
    "Verif.Exec.crash_example",
    "Verif.Exec.recovers_example"
   ],
   "note": "Proved for every crash schedule when batches carry no special requests, maxNumOfBlocksToDelete>0, epsilon>=0 and one batch per number. With special requests and the default config the property is FALSE of the code (special_lost); a crash in the first block makes recovery throw forever (first_block_stuck). Interrupted attempts call the application again; their blocks are rolled back."
  },
  {
   "property": "C13",
   "status": "partial",
   "theorems": [
    "Verif.Exec.repeated_only_after_eviction",
    "Verif.Exec.executed_again_only_after_eviction_partial",
    "Verif.Exec.within_batch_partial",
    "Verif.Exec.duplicate_executed_twice",
    "Verif.Exec.replay_executed_twice",
    "Verif.Exec.internal_executed_twice",
    "Verif.Exec.bridge_hasReply",
    "Verif.Exec.bridge_store"
   ],
   "note": "The unconditional property is FALSE of the code (duplicate in one batch, replay after reply eviction, internal clients: three proved runs). What holds: a request is executed again only if its reply was evicted in between."
  },
  {
   "property": "C14",
   "status": "proved",
   "theorems": [
    "Verif.Clients.pending_bounded",
    "Verif.Clients.replies_bounded",
    "Verif.Clients.admitted_iff",
    "Verif.Clients.add_effect",
    "Verif.Clients.answered_not_admitted",
    "Verif.Clients.clients_isolated",
    "Verif.Clients.reply_retained",
    "Verif.Clients.answered_has_reply",
    "Verif.Clients.restart_keeps_answers",
    "Verif.Clients.earliest_correct",
    "Verif.Clients.zero_seq_breaks",
    "Verif.Clients.index_in_batch_aborts",
    "Verif.Clients.evicted_readmitted"
   ],
   "note": "ClientsManager with its reserved-page persistence. Replies are assumed to carry nonzero request numbers, fit the maximum reply size, and use at most 65536 pages per client; RSI and key loading are not modelled. zero_seq_breaks, index_in_batch_aborts and evicted_readmitted are counterexamples showing those limits are needed."
  },
  {
   "property": "C15",
   "status": "partial",
   "theorems": [
    "Verif.PP.built_accepted",
    "Verif.PP.iterator_matches_check",
    "Verif.PP.unsigned_batch_bound",
    "Verif.PP.signed_batch_bound_partial",
    "Verif.PP.same_digest_different_requests",
    "Verif.PP.equivocation",
    "Verif.PP.renumbered",
    "Verif.PP.wrapped_length_oob",
    "Verif.PP.own_id_aborts",
    "Verif.PP.typicalEnv_typical"
   ],
   "note": "True for batches of unsigned requests (equal contents or an explicit collision among the strings hashed: unsigned_batch_bound). FALSE for signed requests: only the signature bytes are bound (signed_batch_bound_partial); equivocation and renumbered give two accepted batches with one digest and different requests, whatever the hash and signature scheme. Also proved: one message that makes the receiver read out of bounds, one that aborts it."
  },
  {
   "property": "C16",
   "status": "partial",
   "theorems": [
    "Verif.Client.quorum_partial",
    "Verif.Client.honest_result_partial",
    "Verif.Client.sent_unconditional",
    "Verif.Client.one_faulty_reply_decides",
    "Verif.Client.comparator_not_weak_order",
    "Verif.Client.primary_only_trusts_one",
    "Verif.Client.toMofN_sound",
    "Verif.Client.honest_result_for_safe_quorums_partial",
    "Verif.Client.reply_lengths_oob",
    "Verif.Client.reply_lengths_ok"
   ],
   "note": "False as stated: the MatchKey comparator ignores the result code, so one faulty replica that answers first decides the returned result (one_faulty_reply_decides, all quorum sizes >= 2). Proved under the hypothesis that result codes under one primary agree."
  },
  {
   "property": "C17",
   "status": "proved",
   "theorems": [
    "Verif.Time.same_time",
    "Verif.Time.later_batch_later_time",
    "Verif.Time.time_is_proposed",
    "Verif.Time.never_aborts",
    "Verif.Time.accepted_iff",
    "Verif.Time.clocks_close",
    "Verif.Time.transferred_not_checked",
    "Verif.Time.drift",
    "Verif.Time.zero_eps_repeats",
    "Verif.Time.not_documented_max",
    "Verif.Time.example_run",
    "Verif.Time.exLog_fits"
   ],
   "note": "eps>0, no 64-bit overflow (Fits), positive proposals, state transfer atomic; epsilon=0 repeats times (zero_eps_repeats); documented max(...) not what code does (not_documented_max)"
  },
  {
   "property": "C18",
   "status": "proved",
   "theorems": [
    "Verif.Cron.other_component",
    "Verif.Cron.order",
    "Verif.Cron.runs_iff",
    "Verif.Cron.sched_after",
    "Verif.Cron.periodic_runs",
    "Verif.Cron.replicas_agree",
    "Verif.Cron.expected_spaced",
    "Verif.Cron.addEntry_sorted",
    "Verif.Cron.remove_ok",
    "Verif.Cron.engine_never_runs_periodic",
    "Verif.Cron.transfer_diverges",
    "Verif.Cron.no_persist_reruns",
    "Verif.Cron.addEntry_keeps",
    "Verif.Cron.exReg_good"
   ],
   "note": "Proved for ticks that carry a time, restarts between ticks, tables built as the header asks (Good). Findings: the engine never puts a time in a tick, so no periodic action ever runs (engine_never_runs_periodic); after state transfer the schedule in memory is stale and replicas diverge (transfer_diverges). Not modelled: a crash inside a tick, actions that edit the table, int64 overflow."
  },
  {
   "property": "C19",
   "status": "partial",
   "theorems": [
    "Verif.PreExec.complete_sound_partial",
    "Verif.PreExec.cancel_sound_partial",
    "Verif.PreExec.agreement_completes",
    "Verif.PreExec.no_abort",
    "Verif.PreExec.timer_never_decides",
    "Verif.PreExec.hash_binds",
    "Verif.PreExec.sigs_roundtrip",
    "Verif.PreExec.deserSigs_no_oob",
    "Verif.PreExec.valid_result_vouched",
    "Verif.PreExec.honest_result_accepted",
    "Verif.PreExec.good_reply_sig_in_bounds",
    "Verif.PreExec.short_signatures_accepted",
    "Verif.PreExec.failed_reply_oob",
    "Verif.PreExec.Examples.error_consensus_wild_pointer",
    "Verif.PreExec.Examples.duplicate_hashes_cancel",
    "Verif.PreExec.Examples.duplicate_hashes_never_cancel",
    "Verif.PreExec.Examples.result_code_flipped",
    "Verif.PreExec.Examples.error_record_shifted",
    "Verif.PreExec.Examples.unknown_result_aborts",
    "Verif.PreExec.Examples.bad_failed_signature_blames_primary"
   ],
   "note": "For all event sequences. The full claim is false of the code in two proved ways: error consensus over a successful primary completes with an overwritten result pointer; one replica reporting several hashes makes the primary cancel early (cancel_sound_partial assumes one hash per replica)."
  },
  {
   "property": "C20",
   "status": "proved",
   "theorems": [
    "Verif.Smt.root_is_contents",
    "Verif.Smt.root_history_independent"
   ],
   "note": "for every history of batches (each changes something) and prunes, keys with distinct hashes: no abort, root hash = independent trie specification of the contents; history independent. A batch that only deletes absent keys breaks the stored tree (example in Smt/Examples)."
  },
  {
   "property": "C21",
   "status": "partial",
   "theorems": [
    "Verif.Smt.root_binds_values_partial",
    "Verif.Smt.root_does_not_bind_key",
    "Verif.Smt.root_does_not_bind_presence"
   ],
   "note": "The property is false of the code: leaf hashes leave out the key and an empty value hashes to the placeholder (both counterexamples proved for every hash function). Proved: for equal key sets, equal roots bind value hashes unless a collision among the hashed pairs is exhibited."
  },
  {
   "property": "C22",
   "status": "proved",
   "theorems": [
    "Verif.Smt.old_versions_readable",
    "Verif.Smt.update_keeps_old",
    "Verif.Smt.stale_exact",
    "Verif.Smt.prune_leaves_no_garbage"
   ],
   "note": "all histories of updates and prunes in any order: versions not below a pruned one read back their contents; nothing of earlier versions changes; stale list exact; no garbage after pruning"
  },
  {
   "property": "C23",
   "status": "proved",
   "theorems": [
    "Verif.Kvbc.get_exact",
    "Verif.Kvbc.get_pruned",
    "Verif.Kvbc.latest_never_wrong",
    "Verif.Kvbc.latest_exact",
    "Verif.Kvbc.multiGet_eq",
    "Verif.Kvbc.multiGetLatest_eq",
    "Verif.Kvbc.no_abort",
    "Verif.Kvbc.prev_entry",
    "Verif.Kvbc.prevVersion_is_prev",
    "Verif.Kvbc.merkle_get_exact",
    "Verif.Kvbc.merkle_get_pruned",
    "Verif.Kvbc.merkle_latest_never_wrong",
    "Verif.Kvbc.merkle_latest_exact",
    "Verif.Kvbc.immutable_exact",
    "Verif.Kvbc.iMultiGet_eq"
   ],
   "note": "All histories of addBlock/deleteGenesisBlock/deleteLastReachableBlock, versioned, block-Merkle and immutable categories. latest_exact needs: no block deletes and puts the same key, no deleteLast of a block that existed at the last pruning; both conditions are necessary (counterexample runs delete_and_put_lost_by_pruning, prune_then_delete_last_loses_key). Block-Merkle: no hash collision among the keys used (values are stored under key hashes). Immutable: keys are not put again while stored (immutable_rewrite_lost shows what happens otherwise)."
  },
  {
   "property": "C24",
   "status": "proved",
   "theorems": [
    "Verif.Kvbc.prune_preserves_latest",
    "Verif.Kvbc.prune_preserves_get",
    "Verif.Kvbc.merkle_prune_preserves_latest",
    "Verif.Kvbc.merkle_prune_preserves_get",
    "Verif.Kvbc.immutable_prune"
   ],
   "note": "Every history. Exceptions of the versioned category are exactly the documented ones plus a block that deletes and puts the same key (delete_and_put_lost_by_pruning). Immutable keys are removed with their block, by design."
  },
  {
   "property": "C25",
   "status": "proved",
   "theorems": [
    "Verif.Kvbc.undo",
    "Verif.Kvbc.merkle_undo",
    "Verif.Kvbc.immutable_undo"
   ],
   "note": "Every reachable chain with at least one block, every update; exact equality of stored state (for the Merkle tree: of all versions up to the latest). Deleting a block that existed at the last pruning is not an exact undo of its addition: prune_then_delete_last_loses_key, delete_last_revives_pruned_leaf."
  },
  {
   "property": "C26",
   "status": "proved",
   "theorems": [
    "Verif.Chain.raw_block_available",
    "Verif.Chain.added_block_reads_back",
    "Verif.Chain.raw_block_stable",
    "Verif.Chain.parent_digest_of_predecessor",
    "Verif.Chain.restart_invisible",
    "Verif.Chain.same_digest_same_history",
    "Verif.Chain.serRaw_inj",
    "Verif.Chain.digest_binds",
    "Verif.Chain.chain_binds",
    "Verif.Chain.exRun",
    "Verif.Chain.exEvs_good",
    "Verif.Chain.put_and_delete_breaks_the_chain",
    "Verif.Chain.put_and_delete_merkle_aborts",
    "Verif.Chain.immutable_rewrite_loses_raw_block"
   ],
   "note": "All runs of addBlock / failed addBlock / deleteGenesisBlock / deleteLastReachableBlock / restart, all updates. The digest function is assumed collision free only on the digested bytes (a hypothesis of the theorems). Hypotheses GoodRun (proper inputs, no key both put and deleted, no immutable key put twice, at most one block-Merkle category in the model) hold of the example run; without them the claim is false: the three findings."
  },
  {
   "property": "C27",
   "status": "proved",
   "theorems": [
    "Verif.Chain.transfer_safe",
    "Verif.Chain.transfer_links",
    "Verif.Chain.transfer_complete",
    "Verif.Chain.exTransfer",
    "Verif.Chain.exTransfer_right",
    "Verif.Chain.addRaw_spec",
    "Verif.Chain.transfer_no_leftovers"
   ],
   "note": "All arrival orders, crash points and restarts of a replica that receives raw blocks of a source that never calls deleteLastReachableBlock: its contents are always contents the source once had; linking never fails, moves exactly the contiguous blocks, and ends with the source's contents right after the last linked block. Categorized (v3) blockchain; the v4 blockchain is not covered here."
  },
  {
   "property": "C28",
   "status": "proved",
   "theorems": [
    "Verif.Cmf.cmf_roundtrip",
    "Verif.Cmf.cmf_roundtrip_at",
    "Verif.Cmf.cmf_prefix_free",
    "Verif.Cmf.cmf_injective",
    "Verif.Cmf.cmf_decode_total",
    "Verif.Cmf.cmf_decode_reencode",
    "Verif.Cmf.cmf_small_roundtrip"
   ],
   "note": "For every message type of the CMF grammar (structural induction over types), every value and every byte string. Target of deserialize is a fresh object. Findings proved beside: decoding_not_canonical, duplicate_keys_dropped, bool_list_accepts_any, four_bytes_many_elements."
  },
  {
   "property": "C29",
   "status": "proved",
   "theorems": [
    "Verif.Rvt.never_aborts",
    "Verif.Rvt.history_independent",
    "Verif.Rvt.same_as_rebuilt",
    "Verif.Rvt.empty_again",
    "Verif.Rvt.root_value",
    "Verif.Rvt.nodes_exact",
    "Verif.Rvt.mem_levelNodes",
    "Verif.Rvt.min_max_ids",
    "Verif.Rvt.out_of_order_aborts",
    "Verif.Rvt.group_value",
    "Verif.Rvt.group_members",
    "Verif.Rvt.group_ids",
    "Verif.Rvt.group_ids_any",
    "Verif.Rvt.one_change_detected",
    "Verif.Rvt.same_sum_undetected",
    "Verif.Rvt.wrong_removal_undetected",
    "Verif.Rvt.two_changes_undetected",
    "Verif.Rvt.ex_meets"
   ],
   "note": "RangeValidationTree modelled function by function with all its assertions. For every history of adding the next block and removing the oldest one (K >= 2): no assertion fails, the whole tree (nodes, root, leftmost/rightmost arrays) is a function of the window of blocks (history independence, equal to the tree rebuilt from nothing), the root value is the sum of initial values of exactly the ancestors and of the leaf digests modulo M. Findings: the sum does not bind two or more changed blocks; removal with other data is not detected. Ids and powers are unbounded numbers; serialisation not modelled."
  },
  {
   "property": "C30",
   "status": "proved",
   "theorems": [
    "Verif.Lru.never_stuck_and_bounded",
    "Verif.Lru.get_last_put",
    "Verif.Lru.retained_after_put",
    "Verif.Lru.retained_after_get",
    "Verif.Lru.evicted",
    "Verif.Lru.zero_capacity_undefined"
   ],
   "note": "Capacity at least 1; with capacity 0 the first put is undefined behaviour (zero_capacity_undefined)."
  },
  {
   "property": "C31",
   "status": "proved",
   "theorems": [
    "Verif.Replicas.primary_once",
    "Verif.Replicas.collectors_ok",
    "Verif.Replicas.isCollector_iff",
    "Verif.Replicas.collectors_same",
    "Verif.Replicas.every_backup_collects",
    "Verif.Replicas.kinds_exact",
    "Verif.Replicas.operator_external",
    "Verif.Replicas.service_is_external",
    "Verif.Replicas.replica_is_external"
   ],
   "note": "No 16-bit overflow assumed. Findings: without an operator the last client service (or, with no clients, the last replica) is also listed as an external client."
  },
  {
   "property": "C32",
   "status": "proved",
   "theorems": [
    "Verif.Trs.got_prefix_of_pushed",
    "Verif.Trs.nothing_lost",
    "Verif.Trs.overrun_reported",
    "Verif.Trs.overrun_only_if_full",
    "Verif.Trs.stream_contiguous",
    "Verif.Trs.live_complete",
    "Verif.Trs.stream_never_aborts",
    "Verif.Trs.overlap_waits_for_owed",
    "Verif.Trs.newestExt_spec",
    "Verif.Trs.oldestExt_spec",
    "Verif.Trs.find_correct",
    "Verif.Trs.readEG_correct",
    "Verif.Trs.afterStored_exact",
    "Verif.Trs.stream_exact",
    "Verif.Trs.reader_race_aborts",
    "Verif.Trs.find_pruned_aborts",
    "Verif.Trs.gap_ids_repeat",
    "Verif.Trs.live_gap_lost",
    "Verif.Trs.BlocksExamples.skipped_block_lost",
    "Verif.Trs.BlocksExamples.overrun_ends_ok",
    "Verif.Trs.BlocksExamples.overrun_while_waiting_uncaught",
    "Verif.Trs.BlocksExamples.block_zero_aborts",
    "Verif.Trs.BlocksExamples.transition_skips_blocks"
   ],
   "note": "Block streams: all interleavings with writing, publishing, pruning and cancellation, under the producer's contract (blocks pushed in order after being written, none left out; the producer is application code). Event groups: lookup and range reading on a snapshot of storage, and the change from stored to live for any gap or overlap. Findings (proved runs): races that abort the replica, an overrun that ends with status OK, event groups lost or misnumbered after state transfer."
  },
  {
   "property": "C33",
   "status": "proved",
   "theorems": [
    "Verif.Trc.hash_agree",
    "Verif.Trc.hash_order",
    "Verif.Trc.hash_binds",
    "Verif.Trc.binding_of_noColl",
    "Verif.Trc.delivered_from_block",
    "Verif.Trc.delivered_from_group",
    "Verif.Trc.delivered_agreed",
    "Verif.Trc.no_false_alarm",
    "Verif.Trc.ends_only_if_honest",
    "Verif.Trc.answering_delivers",
    "Verif.Trc.crash_only_by_faulty",
    "Verif.Trc.Examples.run_reachable",
    "Verif.Trc.Examples.answering_example",
    "Verif.Trc.Examples.pruned_example",
    "Verif.Trc.Examples.out_of_range_example",
    "Verif.Trc.Examples.type_confusion",
    "Verif.Trc.Examples.one_server_aborts_client",
    "Verif.Trc.Examples.one_server_ends_subscription",
    "Verif.Trc.Examples.info_not_verified",
    "Verif.Trc.Examples.pruning_mismatch_internal_error",
    "Verif.Trc.Examples.resubscribe_uses_old_streams"
   ],
   "note": "Every sequence of answers, for a client's first subscription. Content up to order of the entries and without correlation id and record time, which are not hashed (info_not_verified). Assumes collision resistance of the hash for received data and, where the data stream is rotated, that no block hashes like an event group: the code does not check this (type_confusion). Findings proved as runs: one faulty server can end the process or the subscription; a second subscription on the same client uses streams of the first. Subscribe() without an id (initial state) is not modelled."
  },
  {
   "property": "C34",
   "status": "proved",
   "theorems": [
    "Verif.Meta.metadata_refines",
    "Verif.Meta.starts",
    "Verif.Meta.crash_undoes_transaction",
    "Verif.Meta.transaction_takes_effect",
    "Verif.Meta.sync_survives_power",
    "Verif.Meta.failed_read_erases",
    "Verif.Meta.inner_sync_lost",
    "Verif.Meta.nesting_wraps",
    "Verif.Meta.last_rsi_refused",
    "Verif.Meta.object_count_wraps"
   ],
   "note": "PersistentStorageImp and DBMetadataStorage with the byte encodings of every stored object, nested transactions, process crashes at every step of the store (also during a start), power failures that go back to any contents not yet synced. metadata_refines: from an empty store every admissible run never gets stuck and gives the answers of the specification (one record, updates applied together at the outermost end). Corollaries at the API: a crash undoes an open transaction completely; a committed one is read back as a whole, also after a crash; an outermost sync commit survives a power failure. Admissible: fewer than 255 open transactions, messages of admissible size, no getDescriptorOfLastExecution inside a transaction, no failing store read during a start, object ids that fit in uint16. Outside of that the property fails and this is proved: a failed read during init silently overwrites all metadata with defaults (failed_read_erases), sync of an inner end is dropped (inner_sync_lost), 256 nested begins count as none (nesting_wraps), the last four replica specific objects are not registered (last_rsi_refused), the object count wraps (object_count_wraps)."
  },
  {
   "property": "C35",
   "status": "proved",
   "theorems": [
    "Verif.St.log_justified",
    "Verif.St.chosen_is_vouched",
    "Verif.St.blocks_true",
    "Verif.St.complete_has_all",
    "Verif.St.pages_true",
    "Verif.St.Ex.ex_transfer",
    "Verif.St.Ex.ex_meets",
    "Verif.St.Ex.heap_overflow",
    "Verif.St.Ex.honest_source_refused",
    "Verif.St.Ex.surplus_chunk_undefined",
    "Verif.St.Ex.read_only_summary_aborts",
    "Verif.St.Ex.page_number_unchecked",
    "Verif.St.Ex.resent_page_aborts",
    "Verif.St.Ex.block_zero_aborts"
   ],
   "note": "For every sequence of messages, time-outs, checkpoints and crashes (at any iteration of processData): a checkpoint is chosen only if f+1 different other replicas reported exactly it; every block handed to storage is bound by digests to it, and with at most f faulty replicas is the block of the correct ones unless the log shows a digest collision (or wrong digests of a group with the right sum, see C29); a transfer ends only when all blocks are written (or reported present after a restart) and the reserved pages then stored are those of the correct replicas. Runs that abort or have undefined behaviour are excluded from these theorems; the theorems in Ex show some that a single faulty source can cause."
  },
  {
   "property": "C36",
   "status": "partial",
   "theorems": [
    "Verif.Digest.combination_eq_iff",
    "Verif.Digest.digests_share_iff",
    "Verif.Digest.votes_differ",
    "Verif.Digest.vote_fixes_upper",
    "Verif.Digest.vote_fixed",
    "Verif.Digest.vote_moves",
    "Verif.Digest.null_vote_moves",
    "Verif.Digest.agreement_fails_with_combined_votes",
    "Verif.Digest.ideal_votes_reject"
   ],
   "note": "The claim is FALSE of the code. Proved exactly: which views and numbers share a vote of one digest (combination_eq_iff), and which digests share a vote at all (digests_share_iff: those equal in their upper 128 bits, up to one case). For every digest whose bits 0 and 8 agree (always for the null operation) the vote for (view 0, number 3) is the vote for (view 2, number 1), and a run with one faulty replica that uses it breaks agreement."
  },
  {
   "property": "C37",
   "status": "partial",
   "theorems": [
    "Verif.V4.v4_reads",
    "Verif.V4.v4_chain",
    "Verif.V4.v4_add_ok",
    "Verif.V4.v4_add_read_back",
    "Verif.V4.v4_prune",
    "Verif.V4.v4_link_same",
    "Verif.V4.v4_st_refused",
    "Verif.V4.v4_recovered",
    "Verif.V4.v4_recovery_completes",
    "Verif.V4.v4_sync",
    "Verif.V4.v4_multiGet",
    "Verif.V4.v4_multiGetLatest",
    "Verif.V4.v4_trim",
    "Verif.V4.v4_stale",
    "Verif.V4.Examples.recovery_loses_sequence_number",
    "Verif.V4.Examples.failed_add_breaks_chain",
    "Verif.V4.Examples.multiGet_unsorted_throws",
    "Verif.V4.Examples.exact_limit_throws"
   ],
   "note": "The recovery theorems assume that the crashed process holds the snapshot of its current sequence number; without it the property is false of the code (recovery_loses_sequence_number), and after a failed add the hash chain breaks (failed_add_breaks_chain). Not modelled: categories added to an existing chain, threads, a crash between writing and pruning a linked block."
  },
  {
   "property": "C38",
   "status": "partial",
   "theorems": [
    "Verif.Rsi.rsi_get",
    "Verif.Rsi.rsi_read_back",
    "Verif.Rsi.rsi_slots",
    "Verif.Rsi.rsi_none_ok",
    "Verif.Rsi.rsi_restart_loses",
    "Verif.Rsi.rsi_load_overruns",
    "Verif.Rsi.rsi_first_reply_wrong",
    "Verif.Rsi.rsi_resend_aborts"
   ],
   "note": "FALSE of the code, refuted for every reply that has such information (first reply, resent reply, restart). What holds: replies without information, and the cache inside one process, for all histories."
  },
  {
   "property": "C39",
   "status": "partial",
   "theorems": [
    "Verif.Req.client_request_let_in",
    "Verif.Req.request_fills_message",
    "Verif.Req.request_signed",
    "Verif.Req.request_principal",
    "Verif.Req.validate_total",
    "Verif.Req.receive_total",
    "Verif.Req.client_batch_let_in",
    "Verif.Req.batch_outcome",
    "Verif.Req.batch_is_pieces",
    "Verif.Req.batch_signed",
    "Verif.Req.preprocess_signed_partial",
    "Verif.Req.unknown_type_aborts",
    "Verif.Req.short_request_oob",
    "Verif.Req.replica_id_oob",
    "Verif.Req.forged_internal",
    "Verif.Req.preprocessed_flag_unsigned",
    "Verif.Req.empty_signed_refused",
    "Verif.Req.batch_oob",
    "Verif.Req.batch_null",
    "Verif.Req.preprocess_null"
   ],
   "note": "Round trip client to handler proved for requests and batches; the signature and bounds theorems exclude the pre-processed, reconfiguration and internal flags, under which the claim is refuted (BUG63-BUG68: unknown_type_aborts, short_request_oob, replica_id_oob, forged_internal, preprocessed_flag_unsigned, empty_signed_refused, batch_oob, batch_null, preprocess_null). In batches every non-empty request of an external client is signed, whatever the flags."
  },
  {
   "property": "C40",
   "status": "partial",
   "theorems": [
    "Verif.Keys.keys_follow_history_partial",
    "Verif.Keys.restart_works",
    "Verif.Keys.transfer_works",
    "Verif.Keys.window_keys_agree_partial",
    "Verif.Keys.live_replicas_agree",
    "Verif.Keys.live_replicas_accept_alike",
    "Verif.Keys.one_key_per_number",
    "Verif.Keys.own_secret_matches_partial",
    "Verif.Keys.own_key_follows_history_partial",
    "Verif.Keys.restart_secret",
    "Verif.Keys.restart_forgets_secret",
    "Verif.Keys.restart_signs_with_old_key",
    "Verif.Keys.crossed_exchanges_diverge",
    "Verif.Keys.crash_loses_secret",
    "Verif.Keys.client_installs_key",
    "Verif.Keys.client_stops_replica",
    "Verif.Keys.early_key",
    "Verif.Keys.page_full",
    "Verif.Keys.page_full_reachable",
    "Verif.Keys.unknown_replica",
    "Verif.Keys.garbage_stops_replicas",
    "Verif.Keys.long_string_stops_replicas",
    "Verif.Keys.transfer_aborts",
    "Verif.Keys.empty_key_sent"
   ],
   "note": "Verification keys of other replicas: proved for all runs with restarts and state transfers in which exchanges are executed in the order of their numbers; for replicas that stay up agreement is proved in any order, and the signing secret matches. The full claim is FALSE of the code: a restarted replica signs with its configured secret when another replica exchanged later (restart_forgets_secret, for every history), exchanges out of order leave live and restarted replicas with different keys, a crash between announcement and execution loses the secret, any client can exchange any key, and the 51st key of a replica stops the cluster."
  },
  {
   "property": "C41",
   "status": "proved",
   "theorems": [
    "Verif.Rp.load_returns_saved",
    "Verif.Rp.checkpoint_is_picture",
    "Verif.Rp.checkpoint_immutable",
    "Verif.Rp.restart_restores",
    "Verif.Rp.never_aborts",
    "Verif.Rp.replicas_agree",
    "Verif.Rp.fetch_answers",
    "Verif.Rp.fetch_complete",
    "Verif.Rp.correct_source_accepted",
    "Verif.Rp.transfer_agrees",
    "Verif.Rp.bad_chunk_number_faults",
    "Verif.Rp.Ex.reexecution_diverges"
   ],
   "note": "Every history refines the specification (current pages, and per checkpoint an immutable picture). Each operation is one transaction of the database, so crash points are between operations. Found on the way: bad_chunk_number_faults (a peer makes a replica read outside of the block buffer) and reexecution_diverges (re-execution after a crash between the checkpoint and the update of the last executed number changes the next digest); these are outside of the statement (chunk numbers that were never sent, another sequence of saves)."
  },
  {
   "property": "C42",
   "status": "partial",
   "theorems": [
    "Verif.Ckpt.never_aborts",
    "Verif.Ckpt.window",
    "Verif.Ckpt.monotone",
    "Verif.Ckpt.stable_reported",
    "Verif.Ckpt.stable_justified_partial",
    "Verif.Ckpt.super_justified_partial",
    "Verif.Ckpt.collect_justified_partial",
    "Verif.Ckpt.collect_justified",
    "Verif.Ckpt.no_equivocation",
    "Verif.Ckpt.forwards_received",
    "Verif.Ckpt.stable_flag",
    "Verif.Ckpt.signed_executed",
    "Verif.Ckpt.restart_keeps",
    "Verif.Ckpt.restart_resends",
    "Verif.Ckpt.quorum_makes_stable",
    "Verif.Ckpt.ro_collect_iff",
    "Verif.Ckpt.ro_collect_justified",
    "Verif.Ckpt.ro_agree",
    "Verif.Ckpt.Ex.stable_two",
    "Verif.Ckpt.Ex.diverged_stable",
    "Verif.Ckpt.Ex.super_three",
    "Verif.Ckpt.Ex.fast_example",
    "Verif.Ckpt.Ex.super_before_stable",
    "Verif.Ckpt.Ex.epoch_example"
   ],
   "note": "Partial: the code counts itself twice when an equal message came before its own, so the quorum proved is 2f+c (n-1 for super stable); stable_two, diverged_stable and super_three show that the intended 2f+c+1 and n are false of the code. State transfer: the full property while the epoch is constant; epoch_example shows that it fails across an epoch change."
  },
  {
   "property": "C43",
   "status": "partial",
   "theorems": [
    "Verif.Prune.accepted_iff",
    "Verif.Prune.pruned_only_agreed",
    "Verif.Prune.keeps_latest",
    "Verif.Prune.exact_genesis",
    "Verif.Prune.same_genesis",
    "Verif.Prune.never_terminates",
    "Verif.Prune.pruning_ends",
    "Verif.Prune.disabled_keeps_all",
    "Verif.Prune.replay_harmless",
    "Verif.Prune.Ex.usual",
    "Verif.Prune.Ex.usual_accepted",
    "Verif.Prune.Ex.usual_theorems",
    "Verif.Prune.Ex.half_done",
    "Verif.Prune.Ex.double_prune_terminates",
    "Verif.Prune.Ex.epoch_vote_prunes",
    "Verif.Prune.Ex.hidden_by_bad"
   ],
   "note": "All clauses are proved for the modelled code. Partial because the unconditional English claim is false: an unwedge status signature counts as an answer (epoch_vote_prunes; pruned_only_agreed names it, the others assume none), and two prune requests in one batch terminate the process or, with a crash, lose a pruning (double_prune_terminates, hidden_by_bad; OneEach is assumed where needed). Crashes inside a batch and state transfer are not modelled."
  },
  {
   "property": "C44",
   "status": "partial",
   "theorems": [
    "Verif.Auth.operator_only",
    "Verif.Auth.own_records",
    "Verif.Auth.verification_keys",
    "Verif.Auth.stored_keys",
    "Verif.Auth.unsigned",
    "Verif.Auth.stop_exact",
    "Verif.Auth.operator_recorded",
    "Verif.Auth.key_custody",
    "Verif.Auth.stop_custody",
    "Verif.Auth.record_custody",
    "Verif.Auth.action_custody",
    "Verif.Auth.no_abort",
    "Verif.Auth.unsigned_requests_do_not_interfere",
    "Verif.Auth.one_place",
    "Verif.Auth.replicas_agree_partial",
    "Verif.Auth.own_key_only_false"
   ],
   "note": "Proved of the model for all histories; partial because the full wish (a client's key changes only by its own signature; agreement whatever read-only requests are sent; no request ends the process) is false of the code: own_key_only_false, read_only_reconfiguration_diverges, client_service_ends_the_process."
  },
  {
   "property": "C45",
   "status": "partial",
   "theorems": [
    "Verif.Wedge.never_beyond_partial",
    "Verif.Wedge.stop_in_force_partial",
    "Verif.Wedge.no_stop_without_command_partial",
    "Verif.Wedge.same_stop_partial",
    "Verif.Wedge.passed_only_if_lifted_partial",
    "Verif.Wedge.all_stop_partial",
    "Verif.Wedge.quorum_of_signers_partial",
    "Verif.Wedge.one_vote_suffices",
    "Verif.Wedge.unwedge_exact",
    "Verif.Wedge.restart_keeps_partial",
    "Verif.Wedge.reaches_stop_partial",
    "Verif.Wedge.scaling_lost",
    "Verif.Wedge.stop_missed",
    "Verif.Wedge.beyond_missed_stop",
    "Verif.Wedge.diverged",
    "Verif.Wedge.install_lost",
    "Verif.Wedge.install_stale",
    "Verif.Wedge.callbacks_lost",
    "Verif.Wedge.signs_without_stop"
   ],
   "note": "Partial because the full claim is false of the code: stop_missed, beyond_missed_stop and diverged (state transfer into a later epoch with a stop pending), install_lost and install_stale (InstallCommand), one_vote_suffices (votes of one signer counted repeatedly), scaling_lost, callbacks_lost, signs_without_stop. The positive theorems hold for all runs without InstallCommand whose state transfers stay in the epoch or reach a state without a pending stop."
  },
  {
   "property": "C46",
   "status": "proved",
   "theorems": [
    "Concord.Leave.left_for_cause",
    "Concord.Leave.view_for_cause",
    "Concord.Leave.stays",
    "Concord.Leave.asked_why",
    "Concord.Leave.bad_batch_primary",
    "Concord.Leave.no_running_ahead",
    "Concord.Leave.active_quorum",
    "Concord.Leave.complaints_genuine",
    "Concord.Leave.complaints_act",
    "Concord.Leave.catches_up",
    "Concord.Leave.view_grows",
    "Concord.Leave.never_aborts",
    "Concord.Leave.le_correct_iff",
    "Concord.Leave.le_agreed_iff",
    "Concord.Leave.Examples.regular_ok",
    "Concord.Leave.Examples.nothing_ok",
    "Concord.Leave.Examples.bug102_non_primary_changes_view",
    "Concord.Leave.Examples.bug103_stale_rotation",
    "Concord.Leave.Examples.bug104_older_replaces_newer"
   ],
   "note": "Asking because of a bad batch is a cause of its own: in the code any replica can send one (BUG102); bad_batch_primary and no_running_ahead assume the repaired program (checkSender)."
  },
  {
   "property": "C47",
   "status": "partial",
   "theorems": [
    "Concord.Batch.queue_accounting",
    "Concord.Batch.batches_wellformed",
    "Concord.Batch.built_when",
    "Concord.Batch.fifo",
    "Concord.Batch.nothing_lost_partial",
    "Concord.Batch.proposed_once",
    "Concord.Batch.seq_increasing",
    "Concord.Batch.no_equivocation_partial",
    "Concord.Batch.no_equivocation_sync",
    "Concord.Batch.never_aborts_partial",
    "Concord.Batch.never_aborts_sync",
    "Concord.Batch.sent_when_sync",
    "Concord.Batch.policy_limits",
    "Concord.Batch.proposes",
    "Concord.Batch.Examples.good_run",
    "Concord.Batch.Examples.good_duplicate",
    "Concord.Batch.Examples.lost_request",
    "Concord.Batch.Examples.pruned_batch",
    "Concord.Batch.Examples.equivocates",
    "Concord.Batch.Examples.stale_batch_aborts",
    "Concord.Batch.Examples.stale_batch_aborts_view",
    "Concord.Batch.Examples.good_threads",
    "Concord.Batch.Examples.good_progress",
    "Concord.Batch.Examples.good_fit"
   ],
   "note": "All parts proved for batches finished in the main thread, except that no request is lost only while the queue fits into one message (lost_request: BUG105). With worker threads, no equivocation and no failed assertion are proved for executions in which no batch is in flight when a view is entered or a state transfer ends; the code falsifies them otherwise (equivocates: BUG107, stale_batch_aborts: BUG108), and loses batches finished while pruning (pruned_batch: BUG106)."
  },
  {
   "property": "C48",
   "status": "partial",
   "theorems": [
    "Verif.Wire.Ack.receive_iff",
    "Verif.Wire.Ack.receive_safe",
    "Verif.Wire.Slow.receive_iff",
    "Verif.Wire.Slow.receive_safe",
    "Verif.Wire.Missing.receive_iff",
    "Verif.Wire.Missing.receive_safe",
    "Verif.Wire.Share.receivePartial_iff",
    "Verif.Wire.Share.receivePartial_safe",
    "Verif.Wire.Share.receiveFull_iff",
    "Verif.Wire.Share.receiveFull_safe",
    "Verif.Wire.PartialProof.receive_iff",
    "Verif.Wire.PartialProof.receive_safe",
    "Verif.Wire.FullProof.receive_iff",
    "Verif.Wire.FullProof.receive_safe",
    "Verif.Wire.Ckpt.receive_iff",
    "Verif.Wire.Ckpt.receive_safe",
    "Verif.Wire.Ask.receive_iff",
    "Verif.Wire.Ask.receive_safe",
    "Verif.Wire.Ask.round_trip",
    "Verif.Wire.Leave.receive_iff",
    "Verif.Wire.Leave.receive_safe",
    "Verif.Wire.Ready.receive_iff",
    "Verif.Wire.Ready.receive_safe_iff",
    "Verif.Wire.Ready.receive_oob",
    "Verif.Wire.NewView.receive_iff",
    "Verif.Wire.NewView.receive_safe_partial",
    "Verif.Wire.NewView.receive_oob",
    "Verif.Wire.Status.receive_iff",
    "Verif.Wire.Status.receive_safe",
    "Verif.Wire.Status.complaints_arrive",
    "Verif.Wire.Status.viewChanges_arrive",
    "Verif.Wire.Status.window_arrives"
   ],
   "note": "Twelve types: exact characterisation of what is accepted, and safety. Partial because the code falsifies safety for two types: BUG109 (ReplicaRestartReadyMsg shorter than 29 bytes: exactly these are read past their end, Ready.receive_safe_iff) and BUG110 (NewViewMsg: 16-bit sum of sizes; NewView.receive_oob, safe without wrap). AskForCheckpointMsg accepts any message not longer than header and span context (the comparison is reversed, harmless). Checkpoint and status epochs are not compared with the replica's."
  },
  {
   "property": "C49",
   "status": "partial",
   "theorems": [
    "Verif.Wire.Restarting.restart_has_quorum_partial",
    "Verif.Wire.Restarting.proof_has_quorum_partial",
    "Verif.Wire.Restarting.heard_signed",
    "Verif.Wire.Restarting.restart_by_message",
    "Verif.Wire.Restarting.restart_when_complete",
    "Verif.Wire.Restarting.restart_when_all_ready",
    "Verif.Wire.Proof.sound",
    "Verif.Wire.Proof.accepts",
    "Verif.Wire.Proof.honest_accepted",
    "Verif.Wire.bug112_unsigned_proof",
    "Verif.Wire.bug112_repeated",
    "Verif.Wire.bug111_oob",
    "Verif.Wire.Restarting.bug112_restart",
    "Verif.Wire.Restarting.bug113_late_replica",
    "Verif.Wire.Restarting.bug113_run",
    "Verif.Wire.Restarting.bug114_stale",
    "Verif.Wire.Restarting.bug115_long_message",
    "Verif.Wire.Restarting.bug115_run"
   ],
   "note": "Proved: without proofs of others, a replica restarts only with the messages of n-f different replicas for this reason; every proof that is sent lists such messages; restarts by messages only when stopped; progress when all are ready after the stop; honest proofs are accepted and every accepted proof is taken apart into checked elements. Refuted: a proof is no evidence (repeated elements, elements in the receiver's name unverified: BUG112), reads outside of the message (BUG111), a late replica never restarts (BUG113), messages of an earlier stop count (BUG114), a long message aborts the receiver (BUG115)."
  },
  {
   "property": "C50",
   "status": "partial",
   "theorems": [
    "Verif.Wire.report_answered",
    "Verif.Wire.primary_fills_gaps",
    "Verif.Wire.primary_sends_no_more",
    "Verif.Wire.behind_gets_checkpoint",
    "Verif.Wire.older_gets_viewChange",
    "Verif.Wire.waiting_gets_viewChanges",
    "Verif.Wire.complaints_spread",
    "Verif.Wire.handle_stops_iff",
    "Verif.Wire.handle_length",
    "Verif.Wire.bug116_primary_stops",
    "Verif.Wire.bug117_negative_view",
    "Verif.Wire.bug118_overflow"
   ],
   "note": "proved for reports that a replica makes of its state, and the bound for all byte strings; 'never stops it' is false of the code for hostile reports: handle_stops_iff says exactly which accepted reports do (BUG116-118)"
  },
  {
   "property": "C51",
   "status": "partial",
   "theorems": [
    "Verif.Timers.history_right",
    "Verif.Timers.history_armed",
    "Verif.Timers.due_runs",
    "Verif.Timers.evaluate_once",
    "Verif.Timers.runs_due",
    "Verif.Timers.one_shot_once",
    "Verif.Timers.cancelled_never_runs",
    "Verif.Timers.handles_new",
    "Verif.Timers.recurring_spacing",
    "Verif.Timers.quiet_evaluates",
    "Verif.Timers.evaluate_no_outside",
    "Verif.Timers.add_in_callback_stops",
    "Verif.Timers.cancel_in_callback_stops"
   ],
   "note": "Proved for every history in which the code does not leave its vector. Not true of the code: callbacks that add a timer to a full vector or cancel one make evaluate go on with invalid iterators (BUG119); callbacks that only reset timers are proved safe."
  },
  {
   "property": "C52",
   "status": "proved",
   "theorems": [
    "Verif.Inbox.exactly_once",
    "Verif.Inbox.refused_only_when_full",
    "Verif.Inbox.taken_when_room",
    "Verif.Inbox.held_bounded",
    "Verif.Inbox.idle_only_when_empty",
    "Verif.Inbox.no_starvation"
   ],
   "note": "Steps: a push under the mutex, or the dispatching thread up to the next place where others can interfere."
  },
  {
   "property": "C53",
   "status": "proved",
   "theorems": [
    "Verif.SeqGen.strictly_increasing",
    "Verif.SeqGen.not_behind",
    "Verif.SeqGen.restart_increasing",
    "Verif.SeqGen.never_aborts",
    "Verif.SeqGen.restart_repeats"
   ],
   "note": "The clock is an arbitrary list of readings in milliseconds; state nothing but the two fields."
  },
  {
   "property": "C54",
   "status": "proved",
   "theorems": [
    "Verif.Layout.private_pages",
    "Verif.Layout.transferred_pages",
    "Verif.Layout.same_layout",
    "Verif.Layout.early_use_ends",
    "Verif.Layout.clients_fit",
    "Verif.Layout.clients_own",
    "Verif.Layout.stray_page",
    "Verif.Layout.stray_exchange"
   ],
   "note": "Sum of all numbers below 2^32 is a hypothesis; that a component stays below its number is one as well, shown for the clients manager and false for the key store (stray_exchange)."
  },
  {
   "property": "C55",
   "status": "proved",
   "theorems": [
    "Verif.Source.source_is_peer",
    "Verif.Source.no_assertion",
    "Verif.Source.good_source_comes",
    "Verif.Source.good_source_first",
    "Verif.Source.no_repetition",
    "Verif.Source.silent_source_replaced",
    "Verif.Source.request_to_new_source",
    "Verif.Source.good_source_in_time",
    "Verif.Source.primary_needs_support",
    "Verif.Source.support_suffices",
    "Verif.Source.new_primary_not_preferred",
    "Verif.Source.chatty_source_stays",
    "Verif.Source.no_retransmission_no_patience",
    "Verif.Source.never_out_of_sources",
    "Verif.Source.one_vote_takes_it",
    "Verif.Source.first_primary_preferred"
   ],
   "note": "The last PrePrepare that makes a primary known may come from any replica (one_vote_takes_it); the support proved is that of the messages before it. Limits stated as theorems: a faulty source that repeats one piece of data is never replaced at a tick (chatty_source_stays); the restart when no source is left is never reached (never_out_of_sources)."
  },
  {
   "property": "C56",
   "status": "proved",
   "theorems": [
    "Verif.Ticks.ticks_when_due",
    "Verif.Ticks.one_timer_each",
    "Verif.Ticks.generating_after_start",
    "Verif.Ticks.nothing_after_stop",
    "Verif.Ticks.at_most_one_queued",
    "Verif.Ticks.asks_iff",
    "Verif.Ticks.requests_alternate",
    "Verif.Ticks.requests_in_order",
    "Verif.Ticks.requests_arrive",
    "Verif.Ticks.refused_once_never_again",
    "Verif.Ticks.flood_silent",
    "Verif.Ticks.primary_not_throttled"
   ],
   "note": "The timers refine a plan without handles (ticks_when_due); the throttle is characterised by what was seen (asks_iff). refused_once_never_again and primary_not_throttled are defects of the code, proved of the model (BUG125, BUG126)."
  },
  {
   "property": "C57",
   "status": "proved",
   "theorems": [
    "Verif.Handoff.in_order",
    "Verif.Handoff.returns_after",
    "Verif.Handoff.sync_first",
    "Verif.Handoff.no_push_missed",
    "Verif.Handoff.sync_returns",
    "Verif.Handoff.stop_ends",
    "Verif.Handoff.stop_lost",
    "Verif.Handoff.push_after_end_hangs"
   ],
   "note": "Steps are the pieces of code between two acquisitions of the mutex; a condition variable loses a notification if nobody waits. sync_returns: bound 3 k + 4 turns, k synchronous functions in the queue. stop_ends has the hypothesis that the consumer is not between its look and its wait: without it the claim is false (BUG127, stop_lost)."
  },
  {
   "property": "C58",
   "status": "proved",
   "theorems": [
    "Verif.Pool.one_owner",
    "Verif.Pool.alloc_gives",
    "Verif.Pool.longest_idle_first",
    "Verif.Pool.free_takes",
    "Verif.Pool.counts",
    "Verif.Pool.contexts",
    "Verif.Pool.clear_wedged"
   ],
   "note": "Who holds what is read off the trace that the callers saw (Spec.held), not off the queues of the pool. contexts covers executions in which no job throws; clear_wedged shows what happens if one does (BUG129)."
  }
 ]
}