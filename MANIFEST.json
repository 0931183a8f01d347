{
 "claims": [
  {
   "property": "C01",
   "status": "proved",
   "theorems": [
    "Horus.Wire.decode_encodeBatch",
    "Horus.Wire.encodeBatch_fits",
    "Horus.Wire.decode_encodeSingle"
   ],
   "note": "round trip for every batch; messages beyond the buffer are cut at a message boundary"
  },
  {
   "property": "C02",
   "status": "proved",
   "theorems": [
    "Horus.Wire.decodePacket_sound"
   ],
   "note": "every byte string: decoded messages tile the buffer after the header; no access out of range (list model with explicit offsets)"
  },
  {
   "property": "C03",
   "status": "proved",
   "theorems": [
    "Horus.Discovery.classify_heartbeat",
    "Horus.Discovery.classify_ack",
    "Horus.Discovery.classify_data",
    "Horus.Discovery.classify_announcement",
    "Horus.Discovery.classify_by_flag_bits"
   ],
   "note": ""
  },
  {
   "property": "C04",
   "status": "partial",
   "theorems": [
    "Horus.Discovery.decode_encodeAnnouncement",
    "Horus.Discovery.wireTopic_decode_encode",
    "Horus.Discovery.longName_conflated"
   ],
   "note": "round trip for names of at most 63 bytes; longer names are truncated, so two distinct topics can be announced identically (longName_conflated)"
  },
  {
   "property": "C05",
   "status": "partial",
   "theorems": [
    "Horus.Fragment.fragment_sizes",
    "Horus.Fragment.fragment_too_big",
    "Horus.Fragment.reassemble_single",
    "Horus.Fragment.reassemble_exact",
    "Horus.Fragment.reassemble_complete",
    "Horus.Fragment.messages_keep_apart",
    "Horus.Fragment.reassemble_twice"
   ],
   "note": "exact and complete for any order, loss and duplication until completion; the at-most-once half is false after completion: a second full set of fragments is delivered again (reassemble_twice)"
  },
  {
   "property": "C06",
   "status": "proved",
   "theorems": [
    "Horus.Fragment.reassembler_bounded",
    "Horus.Fragment.gc_discards_stale"
   ],
   "note": ""
  },
  {
   "property": "C07",
   "status": "partial",
   "theorems": [
    "Horus.Replicator.replicate_small_partial",
    "Horus.Replicator.large_never_delivered"
   ],
   "note": "holds for payloads of at most 1400 bytes; false for every larger one: the sender never writes the fragment header the receiver parses (large_never_delivered)"
  },
  {
   "property": "C08",
   "status": "partial",
   "theorems": [
    "Horus.Reliability.accepted_iff_new",
    "Horus.Reliability.accepted_increasing",
    "Horus.Reliability.wrap_redelivers",
    "Horus.Reliability.full_table_redelivers",
    "Horus.Reliability.full_table_reachable",
    "Horus.Reliability.dedup_table_bounded"
   ],
   "note": "holds below 4096 (sender, topic) keys and while sequences stay within 2^31; outside that regime redelivery is possible (witness theorems)"
  },
  {
   "property": "C09",
   "status": "proved",
   "theorems": [
    "Horus.Reliability.latch_resends_bounded",
    "Horus.Reliability.no_resend_after_ack",
    "Horus.Reliability.latch_retained",
    "Horus.Replicator.ack_ends_latch"
   ],
   "note": ""
  },
  {
   "property": "C19",
   "status": "proved",
   "theorems": [
    "Horus.Discovery.export_iff",
    "Horus.Discovery.import_iff",
    "Horus.Discovery.matching_symmetric"
   ],
   "note": ""
  },
  {
   "property": "C10",
   "status": "proved",
   "theorems": [
    "Horus.Mac.streaming_sha256",
    "Horus.Mac.sha256_standard",
    "Horus.Mac.hmac_standard",
    "Horus.Mac.K_standard",
    "Horus.Mac.IV_standard",
    "Horus.Mac.ctEq_iff",
    "Horus.Mac.deriveKey_hex",
    "Horus.Mac.pbkdf2_standard"
   ],
   "note": "any split into pieces, any message and key length; the code's tables equal those of FIPS 180-4"
  },
  {
   "property": "C11",
   "status": "proved",
   "theorems": [
    "Horus.Estop.remote_estop_iff",
    "Horus.Estop.no_key_no_estop",
    "Horus.Estop.dispatch_spec"
   ],
   "note": ""
  },
  {
   "property": "C12",
   "status": "proved",
   "theorems": [
    "Horus.Estop.genuine_estop_accepted",
    "Horus.Estop.framed_estop_triggers",
    "Horus.Estop.sent_four_times",
    "Horus.Estop.at_most_four",
    "Horus.Estop.four_per_broadcast",
    "Horus.Estop.unkeyed_estop_refused",
    "Horus.Estop.warn_once"
   ],
   "note": ""
  },
  {
   "property": "C13",
   "status": "proved",
   "theorems": [
    "Horus.Guard.globMatch_iff"
   ],
   "note": ""
  },
  {
   "property": "C14",
   "status": "proved",
   "theorems": [
    "Horus.Guard.import_allowed_iff",
    "Horus.Guard.export_allowed_iff",
    "Horus.Guard.auto_import_history",
    "Horus.Guard.auto_never_opened",
    "Horus.Guard.auto_own_topic_protected",
    "Horus.Guard.second_subscriber_forgotten",
    "Horus.Guard.parseImport_safe",
    "Horus.Guard.parseImport_complete"
   ],
   "note": "second_subscriber_forgotten records that roles are not counted per handle: closing one of two subscriber handles closes the import for both"
  },
  {
   "property": "C15",
   "status": "proved",
   "theorems": [
    "Horus.NetFilter.cidr_contains_iff",
    "Horus.NetFilter.peer_filter_iff",
    "Horus.NetFilter.any_only_explicit"
   ],
   "note": "library text parsers are universally quantified parameters"
  },
  {
   "property": "C16",
   "status": "proved",
   "theorems": [
    "Horus.NetFilter.rate_limit",
    "Horus.NetFilter.system_topic_rates",
    "Horus.NetFilter.burst_admitted",
    "Horus.NetFilter.spaced_admitted"
   ],
   "note": "floating-point addition is any function within epsilon of the exact sum"
  },
  {
   "property": "C17",
   "status": "partial",
   "theorems": [
    "Horus.Peers.no_false_alarm",
    "Horus.Peers.threshold_one_false_alarm",
    "Horus.Peers.grace_respected",
    "Horus.Peers.reported_once",
    "Horus.Peers.silent_peer_detected"
   ],
   "note": "accuracy holds for thresholds of at least 2; with the configurable threshold 1 it is false (threshold_one_false_alarm)"
  },
  {
   "property": "C18",
   "status": "proved",
   "theorems": [
    "Horus.Peers.peer_table_bounded",
    "Horus.Peers.announce_keeps_live",
    "Horus.Peers.newcomer_admitted_iff",
    "Horus.Peers.known_peer_updated",
    "Horus.Peers.live_peer_never_evicted",
    "Horus.Peers.liveness_exact",
    "Horus.Peers.subscribers_exact",
    "Horus.Peers.forged_id_redirects",
    "Horus.Peers.discovery_timer_exact"
   ],
   "note": "forged_id_redirects states the limit: an announcement with the victim's own id is not a new host"
  },
  {
   "property": "C20",
   "status": "partial",
   "theorems": [
    "Horus.Optimize.delta_lossless",
    "Horus.Optimize.keyframe_every_interval",
    "Horus.Optimize.first_message_full",
    "Horus.Optimize.delta_delivered_wrong",
    "Horus.Optimize.delta_corrupts_delivery",
    "Horus.Optimize.lost_delta_tears"
   ],
   "note": "encoding and keyframes hold; the receiver does not apply deltas, so delivery is wrong (delta_delivered_wrong), and a lost delta mixes versions even with a decoder (lost_delta_tears)"
  },
  {
   "property": "C21",
   "status": "partial",
   "theorems": [
    "Horus.Optimize.fusion_conserves",
    "Horus.Optimize.fusion_flushes_when_due",
    "Horus.Optimize.fusion_buffered_has_window",
    "Horus.Optimize.fusion_last_message_stuck"
   ],
   "note": "nothing is lost or reordered; emission within the window is false without further traffic (fusion_last_message_stuck)"
  },
  {
   "property": "C22",
   "status": "proved",
   "theorems": [
    "Horus.Optimize.predict_bounded_silence",
    "Horus.Optimize.predict_cold_start",
    "Horus.Optimize.predict_suppresses_only_predicted",
    "Horus.Optimize.immediate_first_unchanged",
    "Horus.Optimize.immediate_never_dropped",
    "Horus.Optimize.empty_chain_identity"
   ],
   "note": "the floating-point error test is a universally quantified parameter"
  },
  {
   "property": "C23",
   "status": "partial",
   "theorems": [
    "Horus.Optimize.send_permitted_while_receiving_partial",
    "Horus.Optimize.throttled_for_ever",
    "Horus.Optimize.no_loss_no_throttle",
    "Horus.Optimize.throttled_only_after_loss",
    "Horus.Optimize.flow_table_bounded",
    "Horus.Optimize.gap_counter_wraps",
    "Horus.Optimize.rate_exact",
    "Horus.Optimize.window_restarts"
   ],
   "note": "the decision depends on what is received, not on attempts: false in general (throttled_for_ever), true while the peer keeps sending"
  },
  {
   "property": "C30",
   "status": "partial",
   "theorems": [
    "Horus.Ring.Mpsc.spsc_received_prefix",
    "Horus.Ring.Mpsc.spsc_send_fails_only_half_full_partial",
    "Horus.Ring.Mpsc.spsc_send_fails_early",
    "Horus.Ring.Mpsc.spsc_everything_sent_is_received",
    "Horus.Ring.Spsc.received_prefix",
    "Horus.Ring.Spsc.unread_bounded",
    "Horus.Ring.Spsc.send_fails_only_half_full_partial",
    "Horus.Ring.Spsc.send_fails_early",
    "Horus.Ring.Spsc.everything_sent_is_received"
   ],
   "note": "FIFO, losslessness and untorn values hold; a refused send only implies half a ring unread, not a full one (spsc_send_fails_early)"
  },
  {
   "property": "C31",
   "status": "proved",
   "theorems": [
    "Horus.Ring.Mpsc.delivered_exactly_once_in_order",
    "Horus.Ring.Mpsc.received_was_sent",
    "Horus.Ring.Mpsc.unread_bounded",
    "Horus.Ring.Mpsc.everything_sent_is_received",
    "Horus.Ring.Mpsc.crashed_producer_blocks",
    "Horus.Ring.Mpsc.spurious_full"
   ],
   "note": "crashed_producer_blocks and spurious_full record limits: a producer dying mid-write blocks the topic, and a send can be refused on an empty ring"
  },
  {
   "property": "C32",
   "status": "partial",
   "theorems": [
    "Horus.Ring.Spmc.claims_disjoint_in_order",
    "Horus.Ring.Spmc.value_exact_unless_lapped_partial",
    "Horus.Ring.Spmc.delivered_twice",
    "Horus.Ring.Spmc.torn_read"
   ],
   "note": "positions are claimed once and in order; the value is right unless the slot is overwritten between claim and copy, which happens (delivered_twice, torn_read); no topology selects this mode"
  },
  {
   "property": "C33",
   "status": "proved",
   "theorems": [
    "Horus.Ring.Broadcast.broadcast_exact",
    "Horus.Ring.Broadcast.missed_exact",
    "Horus.Ring.Broadcast.subscriber_reaches_head",
    "Horus.Ring.Broadcast.two_publishers_torn"
   ],
   "note": "one publisher as stated; two_publishers_torn shows the hypothesis is needed"
  },
  {
   "property": "C34",
   "status": "proved",
   "theorems": [
    "Horus.Topic.counts_exact",
    "Horus.Topic.register_idempotent",
    "Horus.Topic.refused_iff",
    "Horus.Topic.live_entry_kept",
    "Horus.Topic.registered_after",
    "Horus.Topic.slow_participant_uncounted",
    "Horus.Topic.stale_handle_refreshes_other"
   ],
   "note": "calls modelled as atomic; slow_participant_uncounted and stale_handle_refreshes_other record that leases of slow but live participants lapse"
  },
  {
   "property": "C35",
   "status": "proved",
   "theorems": [
    "Horus.Topic.resync_in_range",
    "Horus.Topic.late_join_in_range",
    "Horus.Topic.position_monotone",
    "Horus.Topic.single_subscriber_unmoved"
   ],
   "note": "the skipping of unread messages by a resync is C69"
  },
  {
   "property": "C36",
   "status": "proved",
   "theorems": [
    "Horus.Topic.layout_agreed",
    "Horus.Topic.layout_first_wins"
   ],
   "note": "a layout hash of 0 states no layout"
  },
  {
   "property": "C37",
   "status": "partial",
   "theorems": [
    "Horus.Topic.auto_capacity_valid",
    "Horus.Topic.region_valid_partial",
    "Horus.Topic.huge_capacity_broken"
   ],
   "note": "holds for requested capacities up to 2^31; larger ones pass the argument check and break it"
  },
  {
   "property": "C39",
   "status": "proved",
   "theorems": [
    "Horus.Topic.backend_fits",
    "Horus.Topic.dispatch_paired",
    "Horus.Topic.second_publisher_same_protocol"
   ],
   "note": "the selected protocol fits the counted participants"
  },
  {
   "property": "C66",
   "status": "partial",
   "theorems": [
    "Horus.Replicator.resend_not_acknowledged",
    "Horus.Replicator.acknowledged_but_dropped"
   ],
   "note": "negated: the resend is dropped as a duplicate before it is acknowledged"
  },
  {
   "property": "C67",
   "status": "partial",
   "theorems": [
    "Horus.Peers.peer_table_bounded",
    "Horus.Reliability.dedup_table_bounded",
    "Horus.Fragment.reassembler_bounded",
    "Horus.Optimize.flow_table_bounded",
    "Horus.Peers.heartbeat_table_unbounded",
    "Horus.Peers.phantom_peer_reported"
   ],
   "note": "the peer, duplicate, reassembly and flow tables are bounded; the heartbeat table is not"
  },
  {
   "property": "C68",
   "status": "proved",
   "theorems": [
    "Horus.Reliability.system_topics_never_deduped"
   ],
   "note": ""
  },
  {
   "property": "C69",
   "status": "partial",
   "theorems": [
    "Horus.Topic.single_subscriber_unmoved",
    "Horus.Topic.position_monotone",
    "Horus.Topic.migration_skips_silently"
   ],
   "note": "true with a single subscriber; with several, an unfortunate interleaving skips unread messages uncounted"
  },
  {
   "property": "C38",
   "status": "proved",
   "theorems": [
    "Horus.Fanout.fanout_in_order",
    "Horus.Fanout.every_send_covers_subscriber",
    "Horus.Fanout.nothing_lost_silently",
    "Horus.Fanout.no_loss_prefix",
    "Horus.Fanout.recv_returns_pending",
    "Horus.Fanout.missed_overcounted",
    "Horus.Fanout.dead_writer_blocks_ring",
    "Horus.Fanout.departed_publisher_messages"
   ],
   "note": "limits recorded: the missed count can be too high (missed_overcounted), a publisher dying inside a send blocks a full ring (dead_writer_blocks_ring), messages unread when a publisher leaves wait for the slot's next owner (departed_publisher_messages)"
  },
  {
   "property": "C70",
   "status": "partial",
   "theorems": [
    "Horus.Fanout.Claim.slots_exclusive",
    "Horus.Fanout.Claim.live_handle_visible",
    "Horus.Fanout.Claim.claim_takes_free",
    "Horus.Fanout.Claim.refused_only_when_full",
    "Horus.Fanout.Claim.recycled_pid_locked_out",
    "Horus.Fanout.Claim.permissive_lock_shares_slot",
    "Horus.Fanout.Claim.lock_names_distinct",
    "Horus.Fanout.Claim.lock_names_collide"
   ],
   "note": "exclusivity holds under the file-lock contract; recovery after crashes is false for a process that gets a dead one's id (recycled_pid_locked_out)"
  },
  {
   "property": "C71",
   "status": "partial",
   "theorems": [
    "Horus.Fanout.Claim.layout_in_region",
    "Horus.Fanout.Claim.layout_disjoint",
    "Horus.Fanout.Claim.words_aligned",
    "Horus.Fanout.Claim.value_fits_partial",
    "Horus.Fanout.Claim.large_value_overruns",
    "Horus.Fanout.Claim.chanCap_spec"
   ],
   "note": "a plain-data value above 4096 bytes does not fit its slot (large_value_overruns)"
  },
  {
   "property": "C40",
   "status": "partial",
   "theorems": [
    "Horus.Pool.freeList_unique",
    "Horus.Pool.free_list_sound",
    "Horus.Pool.count_exact",
    "Horus.Pool.no_leak",
    "Horus.Pool.slot_exclusive_partial",
    "Horus.Pool.alloc_succeeds",
    "Horus.Pool.release_frees",
    "Horus.Pool.failed_alloc_double_allocation",
    "Horus.Pool.crash_in_pop_leaks"
   ],
   "note": "holds for every interleaving as long as no slot of a dead process is reclaimed and handles are released once; witnesses show that reclaiming breaks exclusiveness (failed_alloc_double_allocation) and that a crash inside a pop loses a slot (crash_in_pop_leaks)"
  },
  {
   "property": "C41",
   "status": "partial",
   "theorems": [
    "Horus.Pool.tensors_disjoint_partial",
    "Horus.Pool.contents_stable_partial",
    "Horus.Pool.reference_stays",
    "Horus.Pool.reclaim_takes_shared_tensor"
   ],
   "note": "same regime as C40; reclaiming a dead owner's slot takes a tensor other processes still use (reclaim_takes_shared_tensor)"
  },
  {
   "property": "C42",
   "status": "partial",
   "theorems": [
    "Horus.Pool.references_current",
    "Horus.Pool.validated_is_current_partial",
    "Horus.Pool.stale_refused_partial",
    "Horus.Pool.stale_release_frees_newcomer"
   ],
   "note": "a stale descriptor seen before the check is refused; the check and the decrement are not atomic, so a release racing with reuse frees the newcomer (stale_release_frees_newcomer)"
  },
  {
   "property": "C43",
   "status": "partial",
   "theorems": [
    "Horus.Pool.new_tensor_zero_partial",
    "Horus.Pool.reclaimed_memory_not_zero"
   ],
   "note": "false for slots reclaimed from dead processes (reclaimed_memory_not_zero)"
  },
  {
   "property": "C44",
   "status": "partial",
   "theorems": [
    "Horus.Pool.Shape.new_packed",
    "Horus.Pool.Shape.packed_inside",
    "Horus.Pool.Shape.packed_apart",
    "Horus.Pool.Shape.slice_packed",
    "Horus.Pool.Shape.slice_succeeds_iff",
    "Horus.Pool.Shape.view_packed_partial",
    "Horus.Pool.Shape.view_succeeds",
    "Horus.Pool.Shape.chain_inside_partial",
    "Horus.Pool.Shape.within_sound",
    "Horus.Pool.Shape.within_complete",
    "Horus.Pool.Shape.packed_within",
    "Horus.Pool.Shape.countFits_iff",
    "Horus.Pool.Shape.dataRange_bounded",
    "Horus.Pool.Shape.alignUp_spec",
    "Horus.Pool.Shape.roundUp_eq",
    "Horus.Pool.Shape.allocSize_exact",
    "Horus.Pool.Shape.nine_dims_lose_elements",
    "Horus.Pool.Shape.view_can_panic",
    "Horus.Pool.Shape.forged_range_reaches_neighbour"
   ],
   "note": "holds for shapes of at most eight dimensions; a reshape to more is accepted and loses elements (nine_dims_lose_elements)"
  },
  {
   "property": "C50",
   "status": "proved",
   "theorems": [
    "Horus.Sched.Graph.build_ends",
    "Horus.Sched.Graph.steps_cover_once",
    "Horus.Sched.Graph.producers_first",
    "Horus.Sched.Graph.steps_tight",
    "Horus.Sched.Graph.fails_iff_cycle",
    "Horus.Sched.Graph.involved_iff",
    "Horus.Sched.Graph.topics_used_iff",
    "Horus.Sched.Graph.dispatch_data",
    "Horus.Sched.Graph.chains_split_dependent_nodes",
    "Horus.Sched.Dispatch.parallel_respects_topics",
    "Horus.Sched.Dispatch.sequential_respects_topics",
    "Horus.Sched.Dispatch.sequential_complete"
   ],
   "note": "also for what is executed: sequentially and by the parallel executor. chains_split_dependent_nodes records that the grouping of real-time nodes into chains ignores dependencies"
  },
  {
   "property": "C51",
   "status": "proved",
   "theorems": [
    "Horus.Sched.Graph.order_tiers",
    "Horus.Sched.Graph.steps_cover_once"
   ],
   "note": ""
  },
  {
   "property": "C72",
   "status": "proved",
   "theorems": [
    "Horus.Sched.Dispatch.ticks_once",
    "Horus.Sched.Dispatch.node_exclusive",
    "Horus.Sched.Dispatch.leaves_only_when_done",
    "Horus.Sched.Dispatch.dispatch_returns",
    "Horus.Sched.Dispatch.job_topics_ok",
    "Horus.Sched.Dispatch.job_order_ok"
   ],
   "note": "every interleaving; termination as a bound on the number of rounds in which each worker moves at least twice"
  },
  {
   "property": "C73",
   "status": "partial",
   "theorems": [
    "Horus.Sched.Dispatch.parallel_order_partial",
    "Horus.Sched.Dispatch.parallel_order_violated"
   ],
   "note": "holds when every tier strictly between has a due node; otherwise false (parallel_order_violated)"
  },
  {
   "property": "C52",
   "status": "proved",
   "theorems": [
    "Horus.Sched.Failure.restart_exact",
    "Horus.Sched.Failure.restart_backoff",
    "Horus.Sched.Failure.success_allows",
    "Horus.Sched.Failure.skip_exact",
    "Horus.Sched.Failure.skip_cooldown",
    "Horus.Sched.Failure.skip_continue",
    "Horus.Sched.Failure.ignore_never_stops",
    "Horus.Sched.Failure.fatal_always_stops",
    "Horus.Sched.Failure.effect_exact",
    "Horus.Sched.Failure.no_policy_continues",
    "Horus.Sched.Failure.severity_overrides",
    "Horus.Sched.Failure.reset_fresh",
    "Horus.Sched.Failure.failure_panics_iff",
    "Horus.Sched.Failure.never_retry_panics",
    "Horus.Sched.Failure.backoff_cap",
    "Horus.Sched.Failure.largest_limit_never_fatal"
   ],
   "note": "restart_exact for fewer than 2^32 failures in a row: with max_restarts = 2^32-1 the counter wraps and the failure is never fatal (largest_limit_never_fatal); recording a failure panics exactly when the end of the wait lies beyond the clock's range (failure_panics_iff)"
  },
  {
   "property": "C53",
   "status": "partial",
   "theorems": [
    "Horus.Safety.Latch.latched",
    "Horus.Safety.Latch.announced_at_most_once",
    "Horus.Safety.Latch.announced_only_local",
    "Horus.Safety.Latch.no_late_rise",
    "Horus.Safety.Latch.remote_never_announced",
    "Horus.Safety.Latch.local_is_queued",
    "Horus.Safety.Latch.local_is_announced",
    "Horus.Safety.Latch.state_not_normal",
    "Horus.Safety.Latch.state_latched_partial",
    "Horus.Safety.Latch.safe_state_hides_stop",
    "Horus.Safety.Latch.external_reaches_last_only",
    "Horus.Safety.Latch.two_monitors_one_announcement"
   ],
   "note": "the latch and the announcement hold for every interleaving; the reported SafetyState can be overwritten by a later safe-state request (safe_state_hides_stop), and the external hook reaches only the monitor that installed it last"
  },
  {
   "property": "C54",
   "status": "partial",
   "theorems": [
    "Horus.Safety.Monitor.severity_exact",
    "Horus.Safety.Monitor.severity_monotone",
    "Horus.Safety.Monitor.fed_is_ok",
    "Horus.Safety.Monitor.scale_never_stricter",
    "Horus.Safety.Monitor.huge_timeout_truncated",
    "Horus.Safety.Monitor.clock_step_is_critical"
   ],
   "note": "exact for timeouts below 2^64 ns; longer ones are truncated (huge_timeout_truncated); elapsed time is taken from the wall clock, so a clock step looks like a hang (clock_step_is_critical)"
  },
  {
   "property": "C55",
   "status": "partial",
   "theorems": [
    "Horus.Safety.Monitor.evaluate_exact",
    "Horus.Safety.Monitor.default_ordered",
    "Horus.Safety.Monitor.killed_final",
    "Horus.Safety.Monitor.success_exact",
    "Horus.Safety.Monitor.rt_killed_iff",
    "Horus.Safety.Monitor.rt_killed_by_run_partial",
    "Horus.Safety.Monitor.recovery_after_good_run",
    "Horus.Safety.Monitor.isolation_ends_after_good_run",
    "Horus.Safety.Monitor.main_killed_iff_total",
    "Horus.Safety.Monitor.rt_without_budget_total",
    "Horus.Safety.Monitor.within_budget_never_killed",
    "Horus.Safety.Monitor.scattered_misses_kill",
    "Horus.Safety.Monitor.missed_tick_counts_as_recovery",
    "Horus.Safety.Monitor.recovers_while_missing",
    "Horus.Safety.Monitor.rateless_node_stays_reduced",
    "Horus.Safety.Monitor.rate_restored",
    "Horus.Safety.Monitor.evaluate_original",
    "Horus.Safety.Monitor.success_original",
    "Horus.Safety.Monitor.isolated_probed",
    "Horus.Safety.Monitor.healthy_runs"
   ],
   "note": "the ladder obeys the count it is given; the count is of consecutive misses only on real-time threads whose budget separates good from late ticks. On the main thread it is the total of all misses (main_killed_iff_total), and late ticks count towards recovery (missed_tick_counts_as_recovery)"
  },
  {
   "property": "C56",
   "status": "proved",
   "theorems": [
    "Horus.Safety.Monitor.stopped_iff",
    "Horus.Safety.Monitor.op_stop",
    "Horus.Safety.Monitor.op_config",
    "Horus.Safety.Monitor.critical_watched"
   ],
   "note": ""
  },
  {
   "property": "C74",
   "status": "proved",
   "theorems": [
    "Horus.Safety.Monitor.samples_are_latest",
    "Horus.Safety.Monitor.ring_pos",
    "Horus.Safety.Monitor.ring_cell",
    "Horus.Safety.Monitor.overruns_exact"
   ],
   "note": ""
  },
  {
   "property": "C57",
   "status": "partial",
   "theorems": [
    "Horus.Blackbox.latest_kept",
    "Horus.Blackbox.new_capacity",
    "Horus.Blackbox.disabled_records_nothing",
    "Horus.Blackbox.crash_loses_few",
    "Horus.Blackbox.flush_complete",
    "Horus.Blackbox.reader_shows_log",
    "Horus.Blackbox.torn_line_swallows_next",
    "Horus.Blackbox.log_can_be_torn",
    "Horus.Blackbox.load_exceeds_capacity"
   ],
   "note": "within one run exact; a line torn by a crash swallows the first record of the next run, and a loaded recording may exceed the configured capacity"
  },
  {
   "property": "C75",
   "status": "partial",
   "theorems": [
    "Horus.Blackbox.load_save",
    "Horus.Blackbox.load_old",
    "Horus.Blackbox.crash_during_save_loses_snapshot",
    "Horus.Blackbox.reader_refuses_snapshot"
   ],
   "note": "holds for an uninterrupted save; a crash during the save loses the previous snapshot, and the offline reader refuses the saved format"
  },
  {
   "property": "C24",
   "status": "proved",
   "theorems": [
    "Horus.Presence.never_leaves_directory",
    "Horus.Presence.parse_never_panics",
    "Horus.Presence.accepted_only",
    "Horus.Presence.records_in_namespace",
    "Horus.Presence.tmp_is_not_a_record",
    "Horus.Presence.other_records_kept",
    "Horus.Presence.crafted_name_forges_node"
   ],
   "note": "crafted_name_forges_node records that file content is not escaped"
  },
  {
   "property": "C25",
   "status": "partial",
   "theorems": [
    "Horus.ShmNet.open_geometry",
    "Horus.ShmNet.write_accepted_iff",
    "Horus.ShmNet.write_stays_in_slot",
    "Horus.ShmNet.others_untouched",
    "Horus.ShmNet.head_implies_message",
    "Horus.ShmNet.torn_slot_is_marked",
    "Horus.ShmNet.write_done",
    "Horus.ShmNet.write_misaligned"
   ],
   "note": "for serialized regions the slot size must be a multiple of eight (write_misaligned shows the failure); the writer's own steps only, not races with local producers"
  },
  {
   "property": "C26",
   "status": "partial",
   "theorems": [
    "Horus.ShmNet.read_inside",
    "Horus.ShmNet.read_panics_only_partial",
    "Horus.ShmNet.read_panics",
    "Horus.ShmNet.read_beyond_slot",
    "Horus.ShmNet.read_back",
    "Horus.ShmNet.poll_fresh",
    "Horus.ShmNet.counter_disagreement_misreads",
    "Horus.ShmNet.empty_message_unreadable"
   ],
   "note": "bytes returned are always inside the file; a wrapping length word panics (read_panics)"
  },
  {
   "property": "C76",
   "status": "partial",
   "theorems": [
    "Horus.ShmNet.since_exact",
    "Horus.ShmNet.messageNo_exact",
    "Horus.ShmNet.echo_complete_partial",
    "Horus.ShmNet.rest_never_returned",
    "Horus.ShmNet.echo_stalls"
   ],
   "note": "one poll is exact; across polls messages beyond the budget are skipped (rest_never_returned) and a reader a ring plus its budget behind stalls (echo_stalls)"
  },
  {
   "property": "C77",
   "status": "partial",
   "theorems": [
    "Horus.Presence.listed_iff_recent",
    "Horus.Presence.file_implies_listed",
    "Horus.Presence.accepted_is_on_disk",
    "Horus.Presence.broadcast_round_trip",
    "Horus.Presence.scan_keeps_remote",
    "Horus.Presence.scan_removes_only_dead",
    "Horus.Presence.live_node_listed_partial",
    "Horus.Presence.node_named_like_host",
    "Horus.Presence.new_host_adds_entry"
   ],
   "note": "a local node whose name begins with remote_ or bridged_ is not listed; while broadcasting and on disk the record is exact"
  },
  {
   "property": "C60",
   "status": "partial",
   "theorems": [
    "Horus.Actions.limit_kept",
    "Horus.Actions.queue_bounded",
    "Horus.Actions.preempt_limit_partial",
    "Horus.Actions.preempt_limit_exceeded",
    "Horus.Actions.priority_unbounded",
    "Horus.Actions.preempts_oldest",
    "Horus.Actions.preempts_least_urgent",
    "Horus.Actions.free_slot_starts",
    "Horus.Actions.gateway_priority_exact",
    "Horus.Actions.gateway_priority_wraps"
   ],
   "note": "holds for RejectNew and Queue, and for PreemptOld without a goal timeout; fails for PreemptOld with a timeout and for Priority (witnesses)"
  },
  {
   "property": "C61",
   "status": "partial",
   "theorems": [
    "Horus.Actions.books_balance",
    "Horus.Actions.one_terminal_partial",
    "Horus.Actions.two_terminals",
    "Horus.Actions.one_thread_per_goal",
    "Horus.Actions.stop_joins_all",
    "Horus.Actions.stop_loses_goal",
    "Horus.Actions.metrics_balance",
    "Horus.Actions.duplicate_refused",
    "Horus.Actions.duplicate_preempts",
    "Horus.Actions.refuses_forever"
   ],
   "note": "exact accounting for every history; with a goal timeout a given-up goal that later ends is reported twice (two_terminals); goals in flight at shutdown get no status (stop_loses_goal)"
  },
  {
   "property": "C62",
   "status": "partial",
   "theorems": [
    "Horus.Actions.cancel_returns_iff",
    "Horus.Actions.cancel_all_never_returns",
    "Horus.Actions.cancel_depth_two",
    "Horus.Actions.nil_goal_hangs_server",
    "Horus.Actions.server_keeps_ticking",
    "Horus.Actions.cancel_running",
    "Horus.Actions.cancel_waiting",
    "Horus.Actions.cancel_no_effect",
    "Horus.Actions.cancel_all_exact"
   ],
   "note": "a goal submitted under the nil id makes cancel-all recurse for ever (nil_goal_hangs_server); otherwise every cancel returns with exactly its effect"
  },
  {
   "property": "C78",
   "status": "partial",
   "theorems": [
    "Horus.Actions.queued_only_when_full_partial",
    "Horus.Actions.queue_fifo",
    "Horus.Actions.queue_stuck",
    "Horus.Actions.queue_overtaken"
   ],
   "note": "with a goal timeout a freed slot is not given to the queue (queue_stuck)"
  },
  {
   "property": "C79",
   "status": "proved",
   "theorems": [
    "Horus.Actions.given_up_only_after_warning",
    "Horus.Actions.given_up_was_asked",
    "Horus.Actions.overrun_is_bounded",
    "Horus.Actions.in_time_untouched"
   ],
   "note": "decision of check_timeouts for every goal state and time, and the invariant over all histories"
  },
  {
   "property": "C63",
   "status": "partial",
   "theorems": [
    "Horus.Service.own_answer_partial",
    "Horus.Service.at_most_once_partial",
    "Horus.Service.executed_in_order",
    "Horus.Service.shared_pid_wrong_answer",
    "Horus.Service.others_unaffected",
    "Horus.Service.cache_bounded",
    "Horus.Service.answer_is_delivered",
    "Horus.Service.poll_finds",
    "Horus.Service.interpret_respond",
    "Horus.Service.pending_call_loses_answer",
    "Horus.Service.gateway_at_most_once",
    "Horus.Service.gateway_executes",
    "Horus.Service.gateway_takes_own",
    "Horus.Service.gateway_takes_others",
    "Horus.Service.makeId_inj",
    "Horus.Service.makeId_wraps"
   ],
   "note": "holds when process ids of the processes sharing the memory differ and fewer than 2^32 calls were made; two containers with the same pid get each other's answers (shared_pid_wrong_answer)"
  },
  {
   "property": "C80",
   "status": "partial",
   "theorems": [
    "Horus.Service.early_client_answered_partial",
    "Horus.Service.late_client_never_answered",
    "Horus.Service.sixty_fifth_client_unanswered",
    "Horus.Service.cache_stays"
   ],
   "note": "true for the first 64 client topics; the cache never evicts so every later client is executed but never answered"
  },
  {
   "property": "C81",
   "status": "proved",
   "theorems": [
    "Horus.Service.resilient_spec",
    "Horus.Service.transient_iff",
    "Horus.Service.retry_executes_again"
   ],
   "note": "retry_executes_again records that retries are separate requests: at-least-once execution"
  },
  {
   "property": "C64",
   "status": "partial",
   "theorems": [
    "Horus.Params.validate_iff_partial",
    "Horus.Params.satisfying_accepted",
    "Horus.Params.requiredKeys_lets_numbers_pass",
    "Horus.Params.nan_bound_lets_all_pass",
    "Horus.Params.maxLength_lets_objects_pass",
    "Horus.Params.version_counts_updates",
    "Horus.Params.version_counts_writes",
    "Horus.Params.written_is_valid",
    "Horus.Params.written_was_accepted",
    "Horus.Params.versioned_write_is_current",
    "Horus.Params.value_is_last_write",
    "Horus.Params.read_only_kept_partial",
    "Horus.Params.one_update_per_version_partial",
    "Horus.Params.value_read_is_current_partial",
    "Horus.Params.plain_set_is_lost",
    "Horus.Params.versioned_skips_callbacks",
    "Horus.Params.callback_sees_stale_value",
    "Horus.Params.remove_ignores_read_only",
    "Horus.Params.load_ignores_read_only"
   ],
   "note": "optimistic locking holds for every interleaving of versioned updates; a plain set interleaved with a versioned one is lost (plain_set_is_lost); remove/load/reset bypass read-only and versions; no public function installs metadata, so rules and read-only flags never apply outside tests"
  },
  {
   "property": "C82",
   "status": "partial",
   "theorems": [
    "Horus.Params.new_layers",
    "Horus.Params.defaults_never_lost",
    "Horus.Params.unnamed_key_untouched",
    "Horus.Params.default_keeps",
    "Horus.Params.default_ignores_env",
    "Horus.Params.launch_param_arrives_partial",
    "Horus.Params.launch_dash",
    "Horus.Params.launch_upper",
    "Horus.Params.upper_case_key_unreachable"
   ],
   "note": "layering is exact for every file and environment; launch parameters whose name has a dash or upper-case letter set another parameter"
  },
  {
   "property": "C83",
   "status": "partial",
   "theorems": [
    "Horus.Params.reset_spec",
    "Horus.Params.reset_restores_defaults",
    "Horus.Params.refused_reset_empties"
   ],
   "note": "exact result of every reset; a refused built-in leaves the store without the rest (refused_reset_empties)"
  },
  {
   "property": "C65",
   "status": "partial",
   "theorems": [
    "Horus.LogBuf.every_entry_fits",
    "Horus.LogBuf.stored_entry_reads_back",
    "Horus.LogBuf.round_trip",
    "Horus.LogBuf.truncField_spec",
    "Horus.LogBuf.truncField_valid",
    "Horus.LogBuf.log_keeps_latest",
    "Horus.LogBuf.read_is_latest_partial",
    "Horus.LogBuf.read_skips_only_unfinished",
    "Horus.LogBuf.stale_entry_read_as_newest",
    "Horus.LogBuf.torn_read",
    "Horus.LogBuf.repaired_slot_is_read",
    "Horus.LogBuf.overtaken_writer_replaces_newest",
    "Horus.LogBuf.sizes_must_agree"
   ],
   "note": "every entry fits and reads back; exact contents in one process and for any interleaving of processes that is not overtaken by a whole ring and has no write in progress; the negative theorems show what a reader may see otherwise"
  },
  {
   "property": "C84",
   "status": "partial",
   "theorems": [
    "Horus.LogBuf.drain_misses_nothing_partial",
    "Horus.LogBuf.drain_exactly_once_partial",
    "Horus.LogBuf.fetched_is_getSince",
    "Horus.LogBuf.drain_writes_twice",
    "Horus.LogBuf.drain_behind_loses"
   ],
   "note": "exactly once when nothing is pushed between the two reads of a pass and the drain is never a whole ring behind; duplicates and losses otherwise are proved"
  },
  {
   "property": "C85",
   "status": "partial",
   "theorems": [
    "Horus.LogBuf.batch_round_trip",
    "Horus.LogBuf.level_survives",
    "Horus.LogBuf.levels_nest",
    "Horus.LogBuf.any_bytes_bounded",
    "Horus.LogBuf.batch_count_fits",
    "Horus.LogBuf.small_batch_fits_partial",
    "Horus.LogBuf.burst_is_lost"
   ],
   "note": "codec exact; a burst of 188 or more full-length entries between polls does not fit a datagram and is lost"
  },
  {
   "property": "C86",
   "status": "partial",
   "theorems": [
    "Horus.Handle.both_deaf",
    "Horus.Handle.both_mute",
    "Horus.Handle.both_send_shared",
    "Horus.Handle.both_mute_witness",
    "Horus.Handle.both_overwrites",
    "Horus.Handle.subscriber_stream"
   ],
   "note": "false of the code for a handle that has both sent and received: it neither reaches nor hears the other handles (both_mute, both_deaf) and can overwrite another publisher's message (both_overwrites). For handles that keep to one role the delivery theorem is subscriber_stream"
  },
  {
   "property": "C87",
   "status": "partial",
   "theorems": [
    "Horus.Handle.loopback_fifo_partial",
    "Horus.Handle.both_overflow_loses",
    "Horus.Handle.both_overflow_reorders"
   ],
   "note": "exact queue while no send finds the ring full; overflowing loses and reorders waiting messages"
  },
  {
   "property": "C88",
   "status": "partial",
   "theorems": [
    "Horus.Handle.subscriber_stream",
    "Horus.Handle.subscriber_served_partial",
    "Horus.Handle.stuck_forever",
    "Horus.Handle.slow_subscriber_cut_off",
    "Horus.Handle.epoch_cuts_off",
    "Horus.Handle.sole_subscriber_exact"
   ],
   "note": "what is received is a gapless stretch and a subscriber is served exactly while it is at most one ring behind; one that falls further behind is cut off for good"
  },
  {
   "property": "C89",
   "status": "partial",
   "theorems": [
    "Horus.Serde.serde_fifo",
    "Horus.Serde.serde_progress",
    "Horus.Serde.inline_roundtrip",
    "Horus.Serde.spill_roundtrip",
    "Horus.Serde.storage_accounted",
    "Horus.Serde.storage_reclaimed",
    "Horus.Serde.refused_send_leaks",
    "Horus.Serde.refused_sends_exhaust",
    "Horus.Serde.second_subscriber_gets_blank",
    "Horus.Serde.received_is_wiped",
    "Horus.Serde.orphan_step"
   ],
   "note": "exact order and content for one subscriber handle and any publishers while the slot size is not grown, and full reclamation with one publisher. False of the code: with several publishers a send refused between storing and claiming leaks its pool slot for good, and a second subscriber handle of the same thread receives zeros"
  },
  {
   "property": "C90",
   "status": "partial",
   "theorems": [
    "Horus.Serde.undecodable_blocks",
    "Horus.Serde.undecodable_blocks_witness",
    "Horus.Serde.undecodable_delivers_blank",
    "Horus.Serde.serde_fifo"
   ],
   "note": "false of the code: an undecodable message in a slot blocks the subscriber for good, an undecodable large one is delivered as zeros on the second receive; what holds is the stream of decodable messages (serde_fifo)"
  },
  {
   "property": "C91",
   "status": "partial",
   "theorems": [
    "Horus.Serde.growth_strands_subscriber",
    "Horus.Serde.growth_delivers_forged",
    "Horus.Serde.serde_fifo",
    "Horus.Serde.serde_progress"
   ],
   "note": "false of the code: other handles keep the old slot size, so the subscriber waits for ever or takes bytes from inside another message for one; what holds is delivery as long as no growth happens"
  },
  {
   "property": "C92",
   "status": "partial",
   "theorems": [
    "Horus.Replay.record_exact",
    "Horus.Replay.record_all",
    "Horus.Replay.record_bounded",
    "Horus.Replay.fit_prefix",
    "Horus.Replay.fit_cost",
    "Horus.Replay.fit_maximal",
    "Horus.Replay.executor_no_outputs",
    "Horus.Replay.executor_no_inputs",
    "Horus.Replay.executor_tick_zero",
    "Horus.Replay.executor_interval_ignored",
    "Horus.Replay.ring_stops_at_size"
   ],
   "note": "exact for nodes ticked by the scheduler's own thread. False of the code for nodes on an executor: no outputs are recorded, compute/async/event nodes record no inputs either, and real-time/compute/async ticks are all numbered 0; with both limits set the ring stops and keeps old ticks"
  },
  {
   "property": "C93",
   "status": "partial",
   "theorems": [
    "Horus.Replay.load_saved",
    "Horus.Replay.truncated_refused",
    "Horus.Replay.other_version_refused",
    "Horus.Replay.save_crash_safe",
    "Horus.Replay.save_then_load",
    "Horus.Replay.save_others",
    "Horus.Replay.save_before",
    "Horus.Replay.save_done",
    "Horus.Replay.tmp_not_listed",
    "Horus.Replay.large_never_loads",
    "Horus.Replay.old_layout_never_loads"
   ],
   "note": "crash-safe and exact for files up to 100 MiB; larger ones are saved but never loaded, and recordings in the layout before the schema number, which the code means to accept, are refused"
  },
  {
   "property": "C94",
   "status": "partial",
   "theorems": [
    "Horus.Replay.replay_publishes_nothing",
    "Horus.Replay.replay_same_name_partial",
    "Horus.Replay.start_at_spec",
    "Horus.Replay.start_past_end_ignored",
    "Horus.Replay.replay_clock_zero",
    "Horus.Replay.replay_clock_counts",
    "Horus.Replay.order_lost",
    "Horus.Replay.replayed_topic_contents"
   ],
   "note": "false of the code: a replayed node is never initialised, so nothing is published unless a live node of the same name was added first, the replay clock shows 0 for ever and the recorded order is lost; what is published in the same-name case is exact (replay_same_name_partial)"
  },
  {
   "property": "C95",
   "status": "partial",
   "theorems": [
    "Horus.Replay.seek_spec",
    "Horus.Replay.step_forward",
    "Horus.Replay.step_backward",
    "Horus.Replay.forward_back",
    "Horus.Replay.back_forward",
    "Horus.Replay.continue_spec",
    "Horus.Replay.session_good",
    "Horus.Replay.session_restored",
    "Horus.Replay.after_ticks_never",
    "Horus.Replay.no_step_back_zero",
    "Horus.Replay.watch_shows",
    "Horus.Replay.fires_spec",
    "Horus.Replay.breakpoint_edits"
   ],
   "note": "exact on recordings with increasing ticks; an after-N-ticks breakpoint never stops a run for N of 2 or more, and recordings of executor nodes (all ticks 0) cannot be stepped back"
  },
  {
   "property": "C96",
   "status": "partial",
   "theorems": [
    "Horus.Replay.diff_spec",
    "Horus.Replay.diff_nil_iff",
    "Horus.Replay.diff_self",
    "Horus.Replay.truncated_run_same",
    "Horus.Replay.diff_blind_on_zero_ticks"
   ],
   "note": "exact over the ticks both recordings span; a run cut short is reported as identical, and recordings of executor nodes are compared in their last snapshot only"
  },
  {
   "property": "C97",
   "status": "partial",
   "theorems": [
    "Horus.Replay.sanitize_safe",
    "Horus.Replay.saved_name_safe",
    "Horus.Replay.plain_found",
    "Horus.Replay.plain_injective",
    "Horus.Replay.at_name_lost"
   ],
   "note": "containment holds for every name; a node with an @ in its name is saved under another name than replay looks for"
  },
  {
   "property": "C98",
   "status": "proved",
   "theorems": [
    "Horus.Loop.init_before_tick",
    "Horus.Loop.init_before_shutdown",
    "Horus.Loop.stopped_never_ticks",
    "Horus.Loop.killed_never_ticks"
   ],
   "note": "all histories, all executors"
  },
  {
   "property": "C99",
   "status": "partial",
   "theorems": [
    "Horus.Loop.shutdown_exactly_once_partial",
    "Horus.Loop.finish_shuts",
    "Horus.Loop.killed_node_shut_down_twice",
    "Horus.Loop.crashed_executor_never_shuts_down",
    "Horus.Loop.tick_once_after_run_ticks_shut_down_node",
    "Horus.Loop.tick_once_never_shuts_down"
   ],
   "note": "exactly once for a first run without kills and executor crashes; false of the code for a killed node (twice), for nodes on a crashed compute executor (never) and for programs driven by tick_once (never)"
  },
  {
   "property": "C100",
   "status": "partial",
   "theorems": [
    "Horus.Loop.second_run_never_ticks",
    "Horus.Loop.run_returns_stopped",
    "Horus.Loop.second_run_witness"
   ],
   "note": "false of the code: a run leaves the running flag cleared and nothing sets it again, so every later run ticks nothing and shuts the main-thread nodes down a second time"
  },
  {
   "property": "C101",
   "status": "proved",
   "theorems": [
    "Horus.Loop.stop_at_most_one_more_tick",
    "Horus.Loop.stop_one_more_is_possible",
    "Horus.Loop.fatal_tick_stops",
    "Horus.Loop.fatal_at_most_one_more_tick",
    "Horus.Loop.tick_once_ignores_stop"
   ],
   "note": "the bound is attained; tick_once is not a run and ignores the request (tick_once_ignores_stop)"
  },
  {
   "property": "C102",
   "status": "partial",
   "theorems": [
    "Horus.Loop.pause_holds_partial",
    "Horus.Loop.tick_disarms",
    "Horus.Loop.pause_ignored_by_other_executors",
    "Horus.Loop.pause_ignored_in_deterministic_mode"
   ],
   "note": "holds for main-thread and RT nodes; compute, event and async executors and the deterministic loop never read the pause"
  },
  {
   "property": "C103",
   "status": "partial",
   "theorems": [
    "Horus.Loop.main_init_retried_each_round",
    "Horus.Loop.executor_init_never_retried",
    "Horus.Loop.fatal_init_prevents_all_ticks",
    "Horus.Loop.fatal_init_ignored_by_tick_once"
   ],
   "note": "true on the main thread; an executor node whose init failed is never tried again, and tick_once ignores a fatal failure"
  },
  {
   "property": "C104",
   "status": "partial",
   "theorems": [
    "Horus.Loop.filtered_out_never_ticks_partial",
    "Horus.Loop.executors_ignore_filter"
   ],
   "note": "holds for main-thread nodes; nodes on executors are ticked whether or not the filter names them"
  },
  {
   "property": "C105",
   "status": "partial",
   "theorems": [
    "Horus.Pace.strict_never_faster",
    "Horus.Pace.rt_spacing_partial",
    "Horus.Pace.rt_faster_than_configured",
    "Horus.Pace.rt_keeps_rate",
    "Horus.Pace.main_keeps_rate",
    "Horus.Pace.compute_halves_rate",
    "Horus.Pace.compute_next_cycle",
    "Horus.Pace.main_loop_time",
    "Horus.Pace.exec_loop_time"
   ],
   "note": "never faster for main-thread, compute and async nodes; RT nodes may run up to half a loop period early (1.5 times the configured rate attained); a compute node at the loop rate runs at half of it"
  },
  {
   "property": "C106",
   "status": "partial",
   "theorems": [
    "Horus.Pace.detRound_spec",
    "Horus.Pace.det_run_for",
    "Horus.Pace.det_run_for_ticks_partial",
    "Horus.Pace.det_run_for_divided",
    "Horus.Pace.det_two_steps_witness",
    "Horus.Pace.det_time_vs_dt",
    "Horus.Pace.det_no_graph_never_ends"
   ],
   "note": "exact for one-step graphs; with k steps the clock advances k periods per round, so nodes tick k times too rarely, and without a graph the run never ends"
  },
  {
   "property": "C107",
   "status": "partial",
   "theorems": [
    "Horus.Pace.foreground_never_shed",
    "Horus.Pace.shed_only_after_overrun",
    "Horus.Pace.shedding_ends_partial",
    "Horus.Pace.background_pool_starves"
   ],
   "note": "ends after three idle cycles of a pool with at least one foreground node; a pool of background nodes only starves for ever after one overrun"
  },
  {
   "property": "C108",
   "status": "proved",
   "theorems": [
    "Horus.Pace.rt_nodes_isolated"
   ],
   "note": "for every graph; the price, ordering between dependent RT nodes, is noted in DESIGN.md"
  },
  {
   "property": "C109",
   "status": "partial",
   "theorems": [
    "Horus.Event.one_tick_per_send_partial",
    "Horus.Event.second_event_node_steals_topic",
    "Horus.Event.blocking_send_never_triggers",
    "Horus.Event.dropped_send_triggers"
   ],
   "note": "exact for send and a topic with one event node; with two event nodes only the last registered is triggered, and try_send/send_blocking trigger nothing"
  },
  {
   "property": "C110",
   "status": "partial",
   "theorems": [
    "Horus.Event.no_false_alarm_partial",
    "Horus.Event.quiet_topic_detected",
    "Horus.Event.quiet_after_message_detected",
    "Horus.Event.last_not_ahead",
    "Horus.Event.absent_topic_detected",
    "Horus.Event.first_check_false_alarm",
    "Horus.Event.blocking_publisher_reported_stale",
    "Horus.Event.checkAll_action",
    "Horus.Event.stale_stop_stops_partial",
    "Horus.Event.stale_stop_masked"
   ],
   "note": "exact once a first message has been observed; false alarm at a late first check and for publishers using try_send/send_blocking; a stale Stop subscription is masked by an earlier stale SafeState one"
  },
  {
   "property": "C111",
   "status": "partial",
   "theorems": [
    "Horus.Region.open_handle_keeps_file",
    "Horus.Region.close_not_last",
    "Horus.Region.close_last",
    "Horus.Region.crash_keeps_file",
    "Horus.Region.one_memory_partial",
    "Horus.Region.open_races_last_close",
    "Horus.Region.open_races_sweep",
    "Horus.Region.orphan_close_deletes_live_file",
    "Horus.Region.sweep_removes_reopened_file"
   ],
   "note": "true from any settled state while one handle stays open, and in every history where no open overlaps the last close or a sweep; false otherwise, with four witnesses"
  },
  {
   "property": "C112",
   "status": "partial",
   "theorems": [
    "Horus.Region.backed_unless_shrunk",
    "Horus.Region.same_size_backed_partial",
    "Horus.Region.serial_backed_partial",
    "Horus.Region.creator_truncates_joiner",
    "Horus.Region.joiner_truncates_joiner",
    "Horus.Region.grow_truncates"
   ],
   "note": "true when all handles use one size, or when opens do not overlap and nobody grows at once; false otherwise, with three witnesses"
  },
  {
   "property": "C113",
   "status": "partial",
   "theorems": [
    "Horus.Region.accepts_iff",
    "Horus.Region.joined_after_check_partial",
    "Horus.Region.two_handles_agree_partial",
    "Horus.Region.mismatch_refused",
    "Horus.Region.fitting_type_admitted",
    "Horus.Region.waiting_joiner_unchecked",
    "Horus.Region.generic_creator_admits_all",
    "Horus.Region.long_names_collide"
   ],
   "note": "true of every handle that did not have to wait for the creator; a waiting handle is not checked, a generic creator admits every type, and names are compared on 31 characters"
  },
  {
   "property": "C114",
   "status": "partial",
   "theorems": [
    "Horus.Region.crashed_creator_recovers",
    "Horus.Region.killed_session_adopted",
    "Horus.Region.killed_session_fails_once",
    "Horus.Region.sweep_removes_abandoned",
    "Horus.Region.owner_header_blank",
    "Horus.Region.headless_never_opens",
    "Horus.Region.overlapping_joiners_stuck"
   ],
   "note": "true for one process retrying; overlapping joiners after a crashed creator never succeed, and a changed type fails once"
  },
  {
   "property": "C115",
   "status": "partial",
   "theorems": [
    "Horus.Names.valid_stays_inside",
    "Horus.Names.escaping_refused",
    "Horus.Names.plain_accepted",
    "Horus.Names.distinct_names_distinct_files",
    "Horus.Names.double_slash_same_file",
    "Horus.Names.meta_overwrites_topic",
    "Horus.Names.meta_names_collide"
   ],
   "note": "containment holds; names with an empty component and names ending in .meta collide"
  },
  {
   "property": "C116",
   "status": "partial",
   "theorems": [
    "Horus.Names.sanitize_safe",
    "Horus.Names.sanitize_eq_iff",
    "Horus.Names.robots_isolated_partial",
    "Horus.Names.namespace_usable",
    "Horus.Names.foreign_tree_refused",
    "Horus.Names.harden_only_removes",
    "Horus.Names.harden_private",
    "Horus.Names.harden_foreign",
    "Horus.Names.removes_iff",
    "Horus.Names.named_namespace_stays",
    "Horus.Names.own_namespace_stays",
    "Horus.Names.robots_collide",
    "Horus.Names.blank_name_shares_default",
    "Horus.Names.orphaned_session_loses_topics"
   ],
   "note": "true for names of letters, digits and underscores; names that differ in punctuation share a namespace, and cleanup removes the namespace of a session whose leader exited while other processes use it"
  },
  {
   "property": "C117",
   "status": "proved",
   "theorems": [
    "Horus.Msg.generated_layout_is_c",
    "Horus.Msg.fields_disjoint",
    "Horus.Msg.cty_unique",
    "Horus.Msg.layouts_error",
    "Horus.Msg.ordered_package_accepted",
    "Horus.Msg.printer_agrees_with_generator"
   ],
   "note": "layout arithmetic of the generator is unbounded; the checked arithmetic of the printer is modelled"
  },
  {
   "property": "C118",
   "status": "partial",
   "theorems": [
    "Horus.Msg.echo_correct_partial",
    "Horus.Msg.wrong_length_hex",
    "Horus.Msg.echo_decodes",
    "Horus.Msg.layoutOf_spec",
    "Horus.Msg.generated_registry_faithful",
    "Horus.Msg.zero_led_bytes_hidden",
    "Horus.Msg.padding_field_misread"
   ],
   "note": "true for registries that list every field and for byte arrays that do not begin with a zero; false otherwise"
  },
  {
   "property": "C119",
   "status": "partial",
   "theorems": [
    "Horus.Msg.wellformed_file_parsed",
    "Horus.Msg.parse_sound_partial",
    "Horus.Msg.closed_file_exact",
    "Horus.Msg.cut_message_dropped",
    "Horus.Msg.attributes_dropped"
   ],
   "note": "exact for files that end with a closing brace; a file cut off after a doc comment or an attribute loses its last message without an error"
  },
  {
   "property": "C120",
   "status": "partial",
   "theorems": [
    "Horus.Msg.canonical_determines_partial",
    "Horus.Msg.rendered_type_read_back",
    "Horus.Msg.referenced_type_not_hashed",
    "Horus.Msg.same_hash_other_layout"
   ],
   "note": "true for messages that refer to no other; the type of a field that is another message leaves no trace in the hashed text"
  },
  {
   "property": "C121",
   "status": "partial",
   "theorems": [
    "Horus.ActionClient.waiter_told_verdict",
    "Horus.ActionClient.verdict_unique",
    "Horus.ActionClient.process_drains",
    "Horus.ActionClient.decided_goal_answered",
    "Horus.ActionClient.await_result_true",
    "Horus.ActionClient.answer_final",
    "Horus.ActionClient.answer_before_register_lost",
    "Horus.ActionClient.missing_result_mid_pump"
   ],
   "note": "true when one thread sends and pumps; with a second pumping thread an answer that arrives between sending and registering a goal is lost for ever, and a waiter looking in the middle of a pump is told the result is missing"
  },
  {
   "property": "C122",
   "status": "partial",
   "theorems": [
    "Horus.ActionClient.outcomes_le_sent",
    "Horus.ActionClient.count_idempotent",
    "Horus.ActionClient.successes_never_counted",
    "Horus.ActionClient.rejected_never_counted"
   ],
   "note": "no goal is counted twice in any schedule; but goals that succeed, and goals that are rejected, leave the map before they are counted"
  },
  {
   "property": "C123",
   "status": "partial",
   "theorems": [
    "Horus.ActionClient.callbacks_in_order",
    "Horus.ActionClient.callbacks_complete",
    "Horus.ActionClient.waiter_feedback_published",
    "Horus.ActionClient.waiter_misses_feedback"
   ],
   "note": "true of the registered callbacks; the callback of a waiter is called only for the last feedback message of each pump"
  },
  {
   "property": "C124",
   "status": "partial",
   "theorems": [
    "Horus.Percept.grid_reads_last_write_partial",
    "Horus.Percept.set_reports_bounds",
    "Horus.Percept.row_is_cells",
    "Horus.Percept.cells_in_range",
    "Horus.Percept.fill_not_clamped",
    "Horus.Percept.big_grid_cells_alias"
   ],
   "note": "proved for grids of at most 2^32 cells; above that the 32-bit index wraps and two cells share one byte (a debug build panics); fill does not clamp"
  },
  {
   "property": "C125",
   "status": "partial",
   "theorems": [
    "Horus.Percept.cost_reads_last_write_partial",
    "Horus.Percept.lethal_not_traversable",
    "Horus.Percept.traversable_known",
    "Horus.Percept.applied_occupied_lethal",
    "Horus.Percept.occupied_traversable_until_applied",
    "Horus.Percept.apply_overwrites_costs"
   ],
   "note": "proved for maps of at most 2^32 cells, same index arithmetic as C124"
  },
  {
   "property": "C126",
   "status": "partial",
   "theorems": [
    "Horus.Percept.world_cell_in_bounds",
    "Horus.Percept.centre_round_trip_partial",
    "Horus.Percept.point_gets_its_cell_partial",
    "Horus.Percept.given_cell_contains_partial",
    "Horus.Percept.outside_gets_none",
    "Horus.Percept.edge_point_wrong_cell",
    "Horus.Percept.huge_map_no_cells",
    "Horus.Percept.orientation_ignored",
    "Horus.Percept.tiny_resolution_no_round_trip",
    "Horus.Percept.free_xor_occupied",
    "Horus.Percept.occupied_iff_written"
   ],
   "note": "proved over exact numbers for unturned maps, up to a millionth of a cell at the edges; false at the edges, for turned maps (the orientation is ignored), for sides of 2^31 cells or more and for resolutions below a nanometre; floating-point rounding is not modelled"
  },
  {
   "property": "C127",
   "status": "partial",
   "theorems": [
    "Horus.Percept.pixel_reads_last_write_partial",
    "Horus.Percept.wide_image_rows_alias",
    "Horus.Percept.inferred_pixel_size",
    "Horus.Percept.inferred_encoding"
   ],
   "note": "proved for rows below 4 GiB; above that the recorded row length wraps and rows share bytes"
  },
  {
   "property": "C128",
   "status": "partial",
   "theorems": [
    "Horus.Percept.roi_is_pixels_partial"
   ],
   "note": "proved for rows below 4 GiB, as C127"
  },
  {
   "property": "C129",
   "status": "proved",
   "theorems": [
    "Horus.Percept.depth_f32_reads_last_write",
    "Horus.Percept.depth_mm_reads_last_write",
    "Horus.Percept.depth_mm_error",
    "Horus.Percept.depth_out_of_bounds_ok"
   ],
   "note": "millimetre conversion over exact numbers, for the scale every new image has"
  },
  {
   "property": "C130",
   "status": "proved",
   "theorems": [
    "Horus.Percept.point_at_reads_back",
    "Horus.Percept.extract_reads_back",
    "Horus.Percept.extract_bounds"
   ],
   "note": "for lists of fewer than 2^32 points, which is what the 32-bit point count can hold"
  },
  {
   "property": "C131",
   "status": "partial",
   "theorems": [
    "Horus.Percept.frame_round_trip",
    "Horus.Percept.frame_ascii_cut",
    "Horus.Percept.frame_is_prefix",
    "Horus.Percept.frame_cut_in_character_lost"
   ],
   "note": "names that fit come back and longer ones never become another name; but a name cut inside a character is lost altogether"
  },
  {
   "property": "C132",
   "status": "partial",
   "theorems": [
    "Horus.TickCtx.tick_sees_own_context",
    "Horus.TickCtx.outside_tick_neutral",
    "Horus.TickCtx.outside_now_is_real_time",
    "Horus.TickCtx.init_stamp_other_clock",
    "Horus.TickCtx.rng_closure_asking_panics"
   ],
   "note": "every answer is right for every history; but timestamps taken outside ticks are on another clock, and a closure passed to rng that asks for the time panics"
  },
  {
   "property": "C133",
   "status": "proved",
   "theorems": [
    "Horus.TickCtx.random_numbers_reproducible",
    "Horus.TickCtx.ticks_have_different_seeds",
    "Horus.TickCtx.no_entropy_in_ticks",
    "Horus.TickCtx.outside_draws_own_stream"
   ],
   "note": "for every generator and name hash; contrary to the documentation it also holds in normal mode, where system entropy is promised"
  },
  {
   "property": "C134",
   "status": "partial",
   "theorems": [
    "Horus.TickCtx.budget_left_sequential_partial",
    "Horus.TickCtx.budget_left_round_lower",
    "Horus.TickCtx.round_budget_charges_predecessors",
    "Horus.TickCtx.virtual_budget_never_shrinks",
    "Horus.TickCtx.anytime_ends_on_wall_clock",
    "Horus.TickCtx.anytime_hangs_on_virtual_clock"
   ],
   "note": "exact for nodes ticked by executor threads, tick_once or alone; in a parallel round the time of earlier nodes is charged to later ones; in deterministic mode the budget never shrinks and the documented loop hangs"
  },
  {
   "property": "C135",
   "status": "partial",
   "theorems": [
    "Horus.Clocks.virtual_time_is_sum",
    "Horus.Clocks.virtual_time_monotone",
    "Horus.Clocks.replay_steps_through",
    "Horus.Clocks.replay_monotone",
    "Horus.Clocks.timeline_even",
    "Horus.Clocks.replay_clock_k_times_fast"
   ],
   "note": "the clocks are right; the scheduler advances the replay clock once per graph step instead of once per tick"
  },
  {
   "property": "C136",
   "status": "partial",
   "theorems": [
    "Horus.Clocks.timesteps_add_up_partial",
    "Horus.Clocks.timesteps_vs_clock",
    "Horus.Clocks.own_rate_integrates_too_fast",
    "Horus.Clocks.pipeline_integrates_too_slowly"
   ],
   "note": "true for one-step graphs and nodes at the loop rate; false otherwise: rates are ignored in deterministic mode while dt() is still 1/rate, and the clock advances once per step"
  },
  {
   "property": "C137",
   "status": "partial",
   "theorems": [
    "Horus.Clocks.never_faster",
    "Horus.Clocks.at_most_one_catch_up",
    "Horus.Clocks.no_drift",
    "Horus.Clocks.actual_rate_reports_work",
    "Horus.Clocks.actual_rate_overrun_partial",
    "Horus.Clocks.outlier_forgotten",
    "Horus.Clocks.late_iff"
   ],
   "note": "pacing is right for all work times; actual_hz reports the reciprocal of the work time, not of the cycle time, except for loops that always overrun two periods"
  },
  {
   "property": "C138",
   "status": "partial",
   "theorems": [
    "Horus.Clocks.budget_deadline_period",
    "Horus.Clocks.headroom",
    "Horus.Clocks.period_accurate",
    "Horus.Clocks.absurd_rate_has_no_period"
   ],
   "note": "over exact numbers; above 2 GHz the period is zero"
  },
  {
   "property": "C139",
   "status": "proved",
   "theorems": [
    "Horus.Sched.Late.everyone_ticks",
    "Horus.Sched.Late.never_panics",
    "Horus.Sched.Late.loop_by_order"
   ],
   "note": "with distinct names, successful init and no node paused, stopped or rate limited"
  },
  {
   "property": "C140",
   "status": "partial",
   "theorems": [
    "Horus.Sched.Late.late_node_joins_partial",
    "Horus.Sched.Late.late_node_ignored",
    "Horus.Sched.Late.watching_iff"
   ],
   "note": "true only if the topic registry changes afterwards and something was registered before the first graph was built; otherwise the node is initialised and never ticked"
  },
  {
   "property": "C141",
   "status": "partial",
   "theorems": [
    "Horus.Sched.Late.topics_respected",
    "Horus.Sched.Late.watching_iff",
    "Horus.Sched.Late.register_effect",
    "Horus.Sched.Late.topics_in_tick_ignored",
    "Horus.Sched.Late.consumer_before_producer_for_ever"
   ],
   "note": "true when something was registered before the first graph was built; false when topics are first used inside tick(), the usual case: the graph is then never rebuilt"
  },
  {
   "property": "C142",
   "status": "proved",
   "theorems": [
    "Horus.Builder.accepted_iff",
    "Horus.Builder.accepted_as",
    "Horus.Builder.plain_settings",
    "Horus.Builder.budget_is_deadline",
    "Horus.Builder.finalize_again"
   ],
   "note": "rates as exact positive numbers"
  },
  {
   "property": "C143",
   "status": "partial",
   "theorems": [
    "Horus.Builder.rate_only_partial",
    "Horus.Builder.budget_is_deadline",
    "Horus.Builder.deadline_below_budget"
   ],
   "note": "true when budget and deadline are derived; explicit values are not compared with each other or with the period"
  },
  {
   "property": "C144",
   "status": "partial",
   "theorems": [
    "Horus.TickPeriod.fast_enough",
    "Horus.TickPeriod.not_much_faster_partial",
    "Horus.TickPeriod.exact_whole_partial",
    "Horus.TickPeriod.adjust_fits",
    "Horus.TickPeriod.faster_than_configured"
   ],
   "note": "never too slow; but cut to whole microseconds, so up to a microsecond too fast, and zero above 1 MHz"
  },
  {
   "property": "C145",
   "status": "partial",
   "theorems": [
    "Horus.Names.escape_clean",
    "Horus.Names.escape_id_iff",
    "Horus.Names.escape_idem",
    "Horus.Names.escape_injective_partial",
    "Horus.Names.refused_iff",
    "Horus.Names.clean_names",
    "Horus.Names.distinct_names_refused"
   ],
   "note": "two different names of which one spells out an escape are refused as duplicates; nodes added with add_replay skip the check"
  },
  {
   "property": "C146",
   "status": "proved",
   "theorems": [
    "Horus.Names.valid_iff",
    "Horus.Names.valid_file",
    "Horus.Names.fileName_inj"
   ],
   "note": ""
  },
  {
   "property": "C147",
   "status": "partial",
   "theorems": [
    "Horus.Handle.Wait.blocking_publishes_once",
    "Horus.Handle.Wait.lossy_publishes_once",
    "Horus.Handle.Wait.blocking_ok",
    "Horus.Handle.Wait.blocking_timeout",
    "Horus.Handle.Wait.returns_once_late",
    "Horus.Handle.Wait.early_room_is_used",
    "Horus.Handle.Wait.zero_timeout_never_waits",
    "Horus.Handle.Wait.lossy_stops_at_first",
    "Horus.Handle.Wait.dropped_exact",
    "Horus.Handle.Wait.total_exact_partial",
    "Horus.Handle.Wait.total_is_not_the_traffic",
    "Horus.Handle.Wait.longest_timeout_panics",
    "Horus.Handle.Wait.blocking_on_both_loses",
    "Horus.Handle.Wait.plain_send_on_both_keeps"
   ],
   "note": "holds for handles that keep to one purpose; on a handle that also receives, send_blocking overwrites earlier messages; Duration::MAX panics; the message counter counts send calls, not messages"
  },
  {
   "property": "C148",
   "status": "partial",
   "theorems": [
    "Horus.Handle.Peek.pending_exact",
    "Horus.Handle.Peek.announced_then_served",
    "Horus.Handle.Peek.alone_peek",
    "Horus.Handle.Peek.hidden_by_faster_reader",
    "Horus.Handle.Peek.announced_never_served",
    "Horus.Handle.Peek.publisher_overstates",
    "Horus.Handle.Peek.fanout_never_announces",
    "Horus.Handle.Peek.fanout_waits_unannounced"
   ],
   "note": "exact for the only subscriber handle and for a handle alone on its topic; wrong with several subscriber handles on one thread, for publishers, and on the fan-out backend"
  },
  {
   "property": "C149",
   "status": "partial",
   "theorems": [
    "Horus.Handle.Peek.latest_is_last_published",
    "Horus.Handle.Peek.peek_frame",
    "Horus.Handle.Peek.alone_peek",
    "Horus.Handle.Peek.latest_forgotten",
    "Horus.Handle.Peek.claim_fill",
    "Horus.Handle.Peek.latest_during_a_send",
    "Horus.Handle.Peek.latest_goes_back"
   ],
   "note": "holds between calls for handles that keep to one purpose; a send-and-receive handle forgets its latest message, and during another handle's send the slot of a whole ring earlier is returned"
  },
  {
   "property": "C150",
   "status": "partial",
   "theorems": [
    "Horus.Pkg.resolved_is_installable",
    "Horus.Pkg.resolved_highest",
    "Horus.Pkg.order_irrelevant",
    "Horus.Pkg.resolution_ends",
    "Horus.Pkg.fails_iff",
    "Horus.Pkg.refusal_justified_partial",
    "Horus.Pkg.unneeded_package",
    "Horus.Pkg.solvable_refused",
    "Horus.Pkg.unreadable_deps_ignored"
   ],
   "note": "soundness, maximality, order independence and termination are proved; requirements of versions given up on the way stay in force, so unneeded packages are installed and solvable sets refused, and an unreadable dependency list counts as empty"
  },
  {
   "property": "C151",
   "status": "partial",
   "theorems": [
    "Horus.Pkg.Lock.get_run",
    "Horus.Pkg.Lock.run_canonical",
    "Horus.Pkg.Lock.same_pins_same_file",
    "Horus.Pkg.Lock.hash_order_irrelevant",
    "Horus.Pkg.Lock.new_import_noticed_partial",
    "Horus.Pkg.Lock.pins_kept",
    "Horus.Pkg.Lock.build_skips_iff",
    "Horus.Pkg.Lock.hash_text_ambiguous",
    "Horus.Pkg.Lock.nothing_ever_pinned",
    "Horus.Pkg.Lock.unreadable_replaced",
    "Horus.Pkg.Lock.old_schema_kept"
   ],
   "note": "contents and form are proved; a new import is noticed when the manifest is unchanged, but the hashed text does not separate manifest and imports, no command of the tool pins anything, and an unreadable lock file is replaced by an empty one"
  },
  {
   "property": "C152",
   "status": "partial",
   "theorems": [
    "Horus.Pkg.Save.reader_sees_whole_partial",
    "Horus.Pkg.Save.save_takes_effect_partial",
    "Horus.Pkg.Save.rename_never_fails_partial",
    "Horus.Pkg.Save.own_names_safe",
    "Horus.Pkg.Save.two_savers_tear",
    "Horus.Pkg.Save.two_savers_mix"
   ],
   "note": "holds with one saver at a time; all savers share one temporary name, so two at once tear or mix the file; with own temporary names it would hold for any number"
  },
  {
   "property": "C153",
   "status": "proved",
   "theorems": [
    "Horus.Pkg.Trust.runs_justified",
    "Horus.Pkg.Trust.only_accepted_runs",
    "Horus.Pkg.Trust.cloning_runs_nothing",
    "Horus.Pkg.Trust.unreadable_store_closed",
    "Horus.Pkg.Trust.trust_takes_effect"
   ],
   "note": "for all histories of the modelled commands and of changes to project files; the file is hashed and then run by path, see C154"
  },
  {
   "property": "C154",
   "status": "partial",
   "theorems": [
    "Horus.Pkg.Trust.disabled_refused_partial",
    "Horus.Pkg.Trust.disabled_elsewhere_refused",
    "Horus.Pkg.Trust.enable_restores",
    "Horus.Pkg.Trust.tampered_refused_partial",
    "Horus.Pkg.Trust.untrust_exact",
    "Horus.Pkg.Trust.disabled_still_runs",
    "Horus.Pkg.Trust.disabling_skips_checksum",
    "Horus.Pkg.Trust.spawn_ignores_disabled",
    "Horus.Pkg.Trust.untrust_misses_shared_bytes",
    "Horus.Pkg.Trust.checked_bytes_not_run_bytes"
   ],
   "note": "disabling is honoured when the plugin is found through the registry; its link in the bin directory still runs, without the checksum, and untrust is by contents"
  },
  {
   "property": "C155",
   "status": "proved",
   "theorems": [
    "Horus.Pkg.Extract.extraction_confined",
    "Horus.Pkg.Extract.unpacked_links_inside",
    "Horus.Pkg.Extract.plain_file_unpacked"
   ],
   "note": "for all archives; hard links are modelled as files with given contents (the extraction library resolves their source)"
  },
  {
   "property": "C156",
   "status": "partial",
   "theorems": [
    "Horus.Pkg.Install.copy_exact",
    "Horus.Pkg.Install.copy_reads_inside",
    "Horus.Pkg.Install.copy_ends_partial",
    "Horus.Pkg.Install.swap_crash_points",
    "Horus.Pkg.Install.installs_independent",
    "Horus.Pkg.Install.undisturbed_install",
    "Horus.Pkg.Install.package_dir_in_cache_partial",
    "Horus.Pkg.Install.plain_staging_distinct",
    "Horus.Pkg.Install.self_link_never_ends",
    "Horus.Pkg.Install.self_link_is_unpacked",
    "Horus.Pkg.Install.crash_loses_package",
    "Horus.Pkg.Install.crash_leaves_half",
    "Horus.Pkg.Install.versions_share_staging",
    "Horus.Pkg.Install.own_staging",
    "Horus.Pkg.Install.shared_staging_mixes",
    "Horus.Pkg.Install.version_escapes"
   ],
   "note": "never a half-copied new package; but the old one is removed before the new one is renamed, versions differing after the last dot share a staging directory, a link to its own directory is copied without end, and a version with a slash escapes the cache"
  },
  {
   "property": "C157",
   "status": "partial",
   "theorems": [
    "Horus.Pkg.Verify.installed_iff",
    "Horus.Pkg.Verify.damaged_refused",
    "Horus.Pkg.Verify.forged_refused_partial",
    "Horus.Pkg.Verify.key_names_bare",
    "Horus.Pkg.Verify.stripped_signature_installs",
    "Horus.Pkg.Verify.scoped_never_verified"
   ],
   "note": "the checksum is always enforced; a package sent without its signature is installed although the key is on file, and signatures of scoped packages are never checked"
  },
  {
   "property": "C158",
   "status": "partial",
   "theorems": [
    "Horus.Pkg.Verify.registered_name_safe",
    "Horus.Pkg.Verify.directories_distinct_partial",
    "Horus.Pkg.Verify.url_one_segment",
    "Horus.Pkg.Verify.url_decodes",
    "Horus.Pkg.Verify.url_distinct",
    "Horus.Pkg.Verify.names_collide",
    "Horus.Pkg.Verify.unchecked_name_escapes"
   ],
   "note": "addresses are exact; directories are safe for accepted names, but names with double underscores collide and the rules are not applied when installing"
  },
  {
   "property": "C159",
   "status": "partial",
   "theorems": [
    "Horus.Pool.Keep.held_alive",
    "Horus.Pool.Keep.count_exact_partial",
    "Horus.Pool.Keep.all_returned_partial",
    "Horus.Pool.Keep.pool_use_bounded",
    "Horus.Pool.Keep.freed_stays",
    "Horus.Pool.Keep.contents_stable",
    "Horus.Pool.Keep.refused_returned_partial",
    "Horus.Pool.Keep.foreign_image_lost",
    "Horus.Pool.Keep.foreign_try_send_breaks"
   ],
   "note": "no use after free for every run; counts are exact and everything is returned as long as image types are allocated from the global pool, an image on another pool leaks"
  },
  {
   "property": "C160",
   "status": "partial",
   "theorems": [
    "Horus.Pool.Keep.recv_iff",
    "Horus.Pool.Keep.latest_received_partial",
    "Horus.Pool.Keep.older_images_lost",
    "Horus.Pool.Keep.refused_send_loses_waiting",
    "Horus.Pool.Keep.foreign_image_lost",
    "Horus.Pool.Keep.received_image_changes"
   ],
   "note": "receiving succeeds exactly while someone still holds the buffer; the topic keeps only the last one sent, so of images sent and dropped only the newest can be received; contents are shared, not copied"
  },
  {
   "property": "C161",
   "status": "partial",
   "theorems": [
    "Horus.Launch.sort_total",
    "Horus.Launch.sort_iff",
    "Horus.Launch.sort_perm_partial",
    "Horus.Launch.launch_complete",
    "Horus.Launch.failed_launch_clean_partial",
    "Horus.Launch.running_after_deps",
    "Horus.Launch.missing_dependency_orphans",
    "Horus.Launch.duplicate_name_dropped"
   ],
   "note": "holds for files with distinct names whose dependencies are in the file; a missing dependency is an error that leaves what was started running, and of two nodes of one name one is dropped silently"
  },
  {
   "property": "C162",
   "status": "proved",
   "theorems": [
    "Horus.Launch.Watch.shutdown_leaves_none",
    "Horus.Launch.Watch.running_known",
    "Horus.Launch.Watch.restarts_bounded",
    "Horus.Launch.Watch.policy_kept_partial",
    "Horus.Launch.Watch.ended_is_handled",
    "Horus.Launch.Watch.estop_ends_loop",
    "Horus.Launch.Watch.stopAll_ends_loop",
    "Horus.Launch.Watch.interrupt_ends_loop",
    "Horus.Launch.Watch.asked_before_killed",
    "Horus.Launch.Watch.pass_sleep_bounded",
    "Horus.Launch.Watch.started_distinct"
   ],
   "note": "for processes launched directly; what they start themselves is not modelled; the policy is kept as long as RestartNode is not used on the node (C163)"
  },
  {
   "property": "C163",
   "status": "partial",
   "theorems": [
    "Horus.Launch.Watch.estop_ends_loop",
    "Horus.Launch.Watch.stopAll_ends_loop",
    "Horus.Launch.Watch.session_right_partial",
    "Horus.Launch.Watch.stopped_node_restarts",
    "Horus.Launch.Watch.restart_changes_policy",
    "Horus.Launch.Watch.restart_command_gives_up",
    "Horus.Launch.Watch.session_wrong_process",
    "Horus.Launch.Watch.release_shuts_down",
    "Horus.Launch.Watch.stopAll_restarts_first",
    "Horus.Launch.Watch.estop_waits_for_backoff",
    "Horus.Launch.Watch.pass_sleep_bounded"
   ],
   "note": "StopAll and e-stop end the loop; but a stopped node is restarted by its policy, a commanded restart changes the policy for good and counts against the limit, the session file is filled by position, releasing an e-stop shuts down too, and an e-stop waits for the back-off of crashed nodes"
  },
  {
   "property": "C164",
   "status": "partial",
   "theorems": [
    "Horus.Similar.distance_exact_partial",
    "Horus.Similar.suggestion_nearest_partial",
    "Horus.Similar.suggestion_found_partial",
    "Horus.Similar.distance_multibyte",
    "Horus.Similar.suggestion_nonsense"
   ],
   "note": "for ASCII names; with a non-ASCII candidate the distance is a number that depends only on lengths"
  },
  {
   "property": "C165",
   "status": "partial",
   "theorems": [
    "Horus.Retry.retry_spec",
    "Horus.Retry.retry_succeeds",
    "Horus.Retry.wait_bounded_partial",
    "Horus.Retry.wait_exact",
    "Horus.Retry.first_wait_uncapped"
   ],
   "note": "all proved but the bound of the waits, which does not hold for the first wait"
  },
  {
   "property": "C166",
   "status": "partial",
   "theorems": [
    "Horus.Throttle.at_most_once_per_interval",
    "Horus.Throttle.printed_when_due",
    "Horus.Throttle.set_back_silences",
    "Horus.Throttle.threads_print_twice",
    "Horus.Throttle.once_exactly"
   ],
   "note": "holds for one thread, and hlog_once! for all; two threads can print in one interval, and a clock set back silences the call site"
  },
  {
   "property": "C167",
   "status": "partial",
   "theorems": [
    "Horus.Text.text_reads_back",
    "Horus.Text.text_round_trip",
    "Horus.Text.put_length",
    "Horus.Text.source_name_reads_back",
    "Horus.Text.source_name_lost",
    "Horus.Text.truncate_longest",
    "Horus.Text.truncate_no_panic"
   ],
   "note": "all but TimeReference::source_name, which is empty when a character is cut; texts without NUL"
  },
  {
   "property": "C168",
   "status": "partial",
   "theorems": [
    "Horus.Generic.payload_round_trip",
    "Horus.Generic.metadata_round_trip",
    "Horus.Generic.decoded_sound",
    "Horus.Generic.map_round_trip",
    "Horus.Generic.seq_never_decodes",
    "Horus.Generic.raw_bytes_panic"
   ],
   "note": "holds for formats with field names; formats without never decode, and raw bytes with a length out of range panic"
  },
  {
   "property": "C169",
   "status": "partial",
   "theorems": [
    "Horus.Health.report_first_sixteen",
    "Horus.Health.fault_is_unsafe",
    "Horus.Health.clear_keeps_causes",
    "Horus.Health.mode_disagrees",
    "Horus.Health.fresh_iff",
    "Horus.Health.future_stays_fresh",
    "Horus.Health.correct_exact_partial",
    "Horus.Health.correct_overflow",
    "Horus.Health.correct_monotone"
   ],
   "note": "the mode field can disagree with is_safe, a stamp from the future is fresh, the least offset overflows"
  },
  {
   "property": "C170",
   "status": "partial",
   "theorems": [
    "Horus.Rate.not_too_fast",
    "Horus.Rate.at_most_one_caught_up",
    "Horus.Rate.no_drift",
    "Horus.Rate.late_iff",
    "Horus.Rate.actual_is_work"
   ],
   "note": "all but actual_hz, which reports the inverse of the time worked and not of the period"
  },
  {
   "property": "C171",
   "status": "partial",
   "theorems": [
    "Horus.ExecDriver.one_process_partial",
    "Horus.ExecDriver.restarts_bounded",
    "Horus.ExecDriver.crash_restarts",
    "Horus.ExecDriver.status_ignored",
    "Horus.ExecDriver.gives_up_for_good",
    "Horus.ExecDriver.wait_error_duplicates",
    "Horus.ExecDriver.wait_overflows"
   ],
   "note": "holds while the process can be queried; a failing query starts a second process beside the first; the wait overflows from restart 56 on with the default delay"
  },
  {
   "property": "C172",
   "status": "partial",
   "theorems": [
    "Horus.Hardware.legacy_section",
    "Horus.Hardware.load_each_partial",
    "Horus.Hardware.load_fails_iff",
    "Horus.Hardware.params_exact",
    "Horus.Hardware.sim_off",
    "Horus.Hardware.sim_only_marked",
    "Horus.Hardware.get_u8_exact",
    "Horus.Hardware.get_i32_exact",
    "Horus.Hardware.get_u32_exact",
    "Horus.Hardware.get_u64_exact",
    "Horus.Hardware.vec_exact",
    "Horus.Hardware.getOr_value",
    "Horus.Hardware.args_exact",
    "Horus.Hardware.getOr_hides",
    "Horus.Hardware.target_space",
    "Horus.Hardware.sim_text_ignored",
    "Horus.Hardware.python_ignores_sim",
    "Horus.Hardware.misspelt_skipped",
    "Horus.Hardware.number_arg_dropped",
    "Horus.Hardware.exec_names_collide"
   ],
   "note": "entries without a known key are skipped rather than refused, a target after a space is not simulated, get_or hides wrong types, and Python ignores simulation; the TOML parser and floating-point getters are not modelled"
  },
  {
   "property": "C173",
   "status": "partial",
   "theorems": [
    "Horus.Registry.live_metrics_partial",
    "Horus.Registry.full_registry_shares_slot",
    "Horus.Registry.cut_name_hidden",
    "Horus.Registry.long_names_same",
    "Horus.Registry.same_name_schedulers",
    "Horus.Registry.order_wraps",
    "Horus.Registry.stale_registry_wins",
    "Horus.Registry.merged_single"
   ],
   "note": "for at most 64 nodes with different names of 1 to 47 bytes, read between two updates; beyond that nodes share slots or disappear, and files left behind win"
  },
  {
   "property": "C174",
   "status": "partial",
   "theorems": [
    "Horus.Telemetry.snapshot_latest",
    "Horus.Telemetry.posted_in_order",
    "Horus.Telemetry.queue_bounded",
    "Horus.Telemetry.export_kept",
    "Horus.Telemetry.only_last_node",
    "Horus.Telemetry.final_snapshot_dropped"
   ],
   "note": "the channel is as claimed; but of the per-node metrics only the last node's are in a snapshot, because metrics are keyed by name without labels"
  },
  {
   "property": "C175",
   "status": "partial",
   "theorems": [
    "Horus.Geometry.euler_rotates",
    "Horus.Geometry.euler_unit",
    "Horus.Geometry.pose2d_is_yaw",
    "Horus.Geometry.rotate_isometry",
    "Horus.Geometry.normalize_unit",
    "Horus.Geometry.normalizeT_valid",
    "Horus.Geometry.normalized_unit",
    "Horus.Geometry.normalize_agrees",
    "Horus.Geometry.cross_spec",
    "Horus.Geometry.displacement",
    "Horus.Geometry.dot_le",
    "Horus.Geometry.distance_metric",
    "Horus.Geometry.normalize_angle_spec",
    "Horus.Geometry.norm_unique",
    "Horus.Geometry.default_transform_invalid",
    "Horus.Geometry.normalize_angle_hangs"
   ],
   "note": "proved in exact arithmetic; in floating point normalize_angle does not end from 2^57 on, and the default TransformStamped is not a valid transform; rounding is otherwise not modelled"
  },
  {
   "property": "C176",
   "status": "partial",
   "theorems": [
    "Horus.Account.counters",
    "Horus.Account.consec_spec",
    "Horus.Account.unhealthy_iff",
    "Horus.Account.rung_climbs",
    "Horus.Account.event_counts_failures",
    "Horus.Account.event_never_unhealthy",
    "Horus.Account.main_never_unhealthy",
    "Horus.Account.mark_stays",
    "Horus.Account.unhealthy_absorbs"
   ],
   "note": "counters hold for every class but event; health holds for real-time, compute and async nodes; event and main-thread nodes are never marked, and no mark is taken away"
  },
  {
   "property": "C177",
   "status": "partial",
   "theorems": [
    "Horus.Account.safing_once",
    "Horus.Account.honor_safed",
    "Horus.Account.async_honours",
    "Horus.Account.rt_honours",
    "Horus.Account.compute_honours_iff",
    "Horus.Account.compute_request_lost"
   ],
   "note": "holds for async, event and initialised real-time nodes; the compute pool honours requests only in a pass in which some node is ready"
  },
  {
   "property": "C178",
   "status": "partial",
   "theorems": [
    "Horus.Profiler.welford",
    "Horus.Profiler.stats_spec",
    "Horus.Profiler.one_sample",
    "Horus.Profiler.extremes",
    "Horus.Profiler.counts",
    "Horus.Profiler.rate_after_failure",
    "Horus.Profiler.always_failing_half",
    "Horus.Profiler.rate_stale"
   ],
   "note": "all but the failure rate; durations are exact reals"
  },
  {
   "property": "C179",
   "status": "partial",
   "theorems": [
    "Horus.Sandbox.filter_spec",
    "Horus.Sandbox.verdict",
    "Horus.Sandbox.fits",
    "Horus.Sandbox.apply_restricts",
    "Horus.Sandbox.apply_fails_closed",
    "Horus.Sandbox.x32_allowed",
    "Horus.Sandbox.others_allowed",
    "Horus.Sandbox.long_lived_unfiltered",
    "Horus.Sandbox.high_fd_survives"
   ],
   "note": "the filter computes exactly its table; x32 call numbers, io_uring and some others pass it, long-lived plugins have no filter, and old kernels leave descriptors from 1024 open"
  },
  {
   "property": "C180",
   "status": "partial",
   "theorems": [
    "Horus.Clean.mem_listing",
    "Horus.Clean.clean_spec",
    "Horus.Clean.live_others_kept",
    "Horus.Clean.named_never_dead",
    "Horus.Clean.dry_run_harmless",
    "Horus.Clean.all_force",
    "Horus.Clean.all_without_force",
    "Horus.Clean.own_removed_without_force",
    "Horus.Clean.locked_kept",
    "Horus.Clean.other_profile_removed",
    "Horus.Clean.pycache_spec",
    "Horus.Clean.pycache_only",
    "Horus.Clean.outside_removed"
   ],
   "note": "--all-namespaces without --force depends on whether some namespace is dead; the caller's own namespace goes without --force if its leader is gone; locks of other profiles are not seen; links are followed"
  },
  {
   "property": "C181",
   "status": "partial",
   "theorems": [
    "Horus.Hooks.hooks_ok_iff",
    "Horus.Hooks.hooks_ran",
    "Horus.Hooks.pre_gate",
    "Horus.Hooks.teardown_partial",
    "Horus.Hooks.check_ignored",
    "Horus.Hooks.lint_masks",
    "Horus.Hooks.failed_pre_no_teardown",
    "Horus.Hooks.failed_teardown_skips",
    "Horus.Hooks.failed_test_no_teardown",
    "Horus.Hooks.unreadable_skips",
    "Horus.Hooks.no_hooks",
    "Horus.Hooks.unknown_stops"
   ],
   "note": "holds unless a hook ends the process, as a failing fmt or lint hook does; post_test does not follow a failing test; an unreadable manifest skips the hooks"
  },
  {
   "property": "C182",
   "status": "partial",
   "theorems": [
    "Horus.Shell.quote_one_word",
    "Horus.Shell.args_verbatim",
    "Horus.Shell.comment_swallows",
    "Horus.Shell.remote_safe",
    "Horus.Shell.run_where_synced",
    "Horus.Shell.other_user_differs",
    "Horus.Shell.identity_exact",
    "Horus.Shell.identity_binary_partial",
    "Horus.Shell.identity_split",
    "Horus.Shell.identity_quote_refused"
   ],
   "note": "scripts ending in a comment swallow arguments; ~user directories and identity files with spaces or quotes fail; the shell and rsync are modelled from their documentation"
  },
  {
   "property": "C183",
   "status": "partial",
   "theorems": [
    "Horus.Deploy.settings_spec_partial",
    "Horus.Deploy.direct_host",
    "Horus.Deploy.port22_ignored",
    "Horus.Deploy.unknown_arch_guessed",
    "Horus.Deploy.dry_nothing",
    "Horus.Deploy.copied_only_if",
    "Horus.Deploy.complete_partial",
    "Horus.Deploy.stops_at_failure",
    "Horus.Deploy.no_still_runs",
    "Horus.Deploy.killed_is_success",
    "Horus.Deploy.fleet_each",
    "Horus.Deploy.fleet_gate",
    "Horus.Deploy.fleet_no_counts"
   ],
   "note": "answering no still starts the old program and reports completion; --port 22 and unknown architectures are ignored; a killed program counts as success"
  },
  {
   "property": "C184",
   "status": "partial",
   "theorems": [
    "Horus.Deploy.sends_built_partial",
    "Horus.Deploy.sends_built_iff",
    "Horus.Deploy.host_binary_sent",
    "Horus.Deploy.secrets_kept",
    "Horus.Deploy.rest_sent",
    "Horus.Deploy.source_target_dropped"
   ],
   "note": "a binary the developer built for their own machine can be sent; source directories called target are dropped; id_ecdsa keys are sent"
  },
  {
   "property": "C185",
   "status": "partial",
   "theorems": [
    "Horus.Workspace.root_spec",
    "Horus.Workspace.deep_not_found",
    "Horus.Workspace.home_is_workspace",
    "Horus.Workspace.mem_add",
    "Horus.Workspace.registry_latest",
    "Horus.Workspace.lost_registration",
    "Horus.Workspace.same_name_hidden",
    "Horus.Workspace.nested_found",
    "Horus.Workspace.binaries_apart",
    "Horus.Workspace.shared_target_collides"
   ],
   "note": "found from at most nine levels below; the global ~/.horus makes home a workspace; concurrent registrations are lost; binaries apart unless CARGO_TARGET_DIR is absolute"
  },
  {
   "property": "C186",
   "status": "partial",
   "theorems": [
    "Horus.NativeSync.sync_spec",
    "Horus.NativeSync.sync_valid",
    "Horus.NativeSync.change_taken",
    "Horus.NativeSync.no_change",
    "Horus.NativeSync.internal_kept",
    "Horus.NativeSync.other_languages_kept",
    "Horus.NativeSync.plain_round_trip",
    "Horus.NativeSync.left_alone_kept_partial",
    "Horus.NativeSync.dev_lost",
    "Horus.NativeSync.path_moved",
    "Horus.NativeSync.registry_becomes_path",
    "Horus.NativeSync.git_features_dropped",
    "Horus.NativeSync.msgs_twice",
    "Horus.NativeSync.serde_adopted",
    "Horus.NativeSync.concurrent_add_lost",
    "Horus.NativeSync.same_iff"
   ],
   "note": "any change by cargo deletes the development dependencies, moves path dependencies and drops features of git ones; concurrent additions are lost"
  },
  {
   "property": "C187",
   "status": "partial",
   "theorems": [
    "Horus.PipSync.pep_text",
    "Horus.PipSync.spec_parsed",
    "Horus.PipSync.requirement_kept_partial",
    "Horus.PipSync.extras_last_refused",
    "Horus.PipSync.marker_in_name",
    "Horus.PipSync.url_in_name",
    "Horus.PipSync.comment_in_version",
    "Horus.PipSync.collected_partial",
    "Horus.PipSync.value_recorded",
    "Horus.PipSync.install_spec",
    "Horus.PipSync.other_version_ignored",
    "Horus.PipSync.uninstall_spec",
    "Horus.PipSync.uninstall_any_source",
    "Horus.PipSync.conan_ref",
    "Horus.PipSync.conan_some",
    "Horus.PipSync.conan_path"
   ],
   "note": "holds for plain requirements; extras, markers, URLs and comments are misread; a new version of a recorded package is not recorded; values of options are recorded as packages"
  },
  {
   "property": "C188",
   "status": "partial",
   "theorems": [
    "Horus.Endian.native_kept",
    "Horus.Endian.understood_iff",
    "Horus.Endian.all_64",
    "Horus.Endian.pair_exchanged",
    "Horus.Endian.text_reversed",
    "Horus.Endian.resend_unswapped",
    "Horus.Endian.resend_scrambled"
   ],
   "note": "exactly the layouts whose fields all have the guessed size are understood; pairs of 32-bit fields are exchanged and text is reversed in groups of eight"
  },
  {
   "property": "C189",
   "status": "partial",
   "theorems": [
    "Horus.Affinity.nth_iff",
    "Horus.Affinity.pinned_iff",
    "Horus.Affinity.pinned_unrestricted",
    "Horus.Affinity.pin_mem",
    "Horus.Affinity.isolated_never_used",
    "Horus.Affinity.wrong_cpu",
    "Horus.Affinity.last_isolated_fails",
    "Horus.Affinity.recommended_spec",
    "Horus.Affinity.own_core_partial",
    "Horus.Affinity.in_turn",
    "Horus.Affinity.recommended_plain",
    "Horus.Affinity.default_apart",
    "Horus.Affinity.cores_collapse",
    "Horus.Affinity.irqs_not_own",
    "Horus.Affinity.irqs_onto_zero",
    "Horus.Affinity.require_iff",
    "Horus.Affinity.require_without_cores",
    "Horus.Affinity.parse_text"
   ],
   "note": "a core is taken as an index among the allowed CPUs, so isolated CPUs are never used and another CPU is used in their place; several cores given to the scheduler all collapse onto one"
  },
  {
   "property": "C190",
   "status": "proved",
   "theorems": [
    "Horus.Copy.copy_exact",
    "Horus.Copy.streams_aligned",
    "Horus.Copy.fenced"
   ],
   "note": ""
  },
  {
   "property": "C191",
   "status": "partial",
   "theorems": [
    "Horus.CppAction.one_result",
    "Horus.CppAction.right_result",
    "Horus.CppAction.result_published",
    "Horus.CppAction.ended_finished",
    "Horus.CppAction.running_known",
    "Horus.CppAction.running_distinct",
    "Horus.CppAction.run_accepted",
    "Horus.CppAction.cancel_reaches",
    "Horus.CppAction.cancel_after_start_partial",
    "Horus.CppAction.id_pid",
    "Horus.CppAction.ids_distinct",
    "Horus.CppAction.shutdown_all",
    "Horus.CppAction.poll_iff",
    "Horus.CppAction.cancel_lost",
    "Horus.CppAction.unstarted_no_result",
    "Horus.CppAction.rejected_unreported",
    "Horus.CppAction.poll_discards",
    "Horus.CppAction.finish_blocks",
    "Horus.CppAction.shutdown_no_result"
   ],
   "note": "a cancellation read before its goal is lost, a rejection is not reported, polling for one goal discards the results of others, goals running at shutdown get no result"
  },
  {
   "property": "C192",
   "status": "partial",
   "theorems": [
    "Horus.CppService.wire_exact",
    "Horus.CppService.cstr_fits",
    "Horus.CppService.own_answer_partial",
    "Horus.CppService.other_answer",
    "Horus.CppService.answer_taken",
    "Horus.CppService.failure_answers",
    "Horus.CppService.success_answers"
   ],
   "note": "with one client per process; two clients in one process use the same request numbers and get each other's answers; a failing handler answers null as if it had succeeded"
  },
  {
   "property": "C193",
   "status": "partial",
   "theorems": [
    "Horus.CppBuilder.built",
    "Horus.CppBuilder.same_as_rust_partial",
    "Horus.CppBuilder.slow_aborts",
    "Horus.CppBuilder.rate_cut",
    "Horus.CppBuilder.own_callback",
    "Horus.CppBuilder.only_32",
    "Horus.CppBuilder.failed_stops"
   ],
   "note": "for whole rates; other rates are cut to a whole number and those below one hertz end the process; 32 nodes with callbacks per process"
  },
  {
   "property": "C194",
   "status": "partial",
   "theorems": [
    "Horus.PyNode.accepted_iff",
    "Horus.PyNode.as_asked",
    "Horus.PyNode.policy_meaning",
    "Horus.PyNode.seconds_exact",
    "Horus.PyNode.seconds_near",
    "Horus.PyNode.empty_topic"
   ],
   "note": "an empty event topic is not refused and makes the node real-time instead of event-driven"
  },
  {
   "property": "C195",
   "status": "partial",
   "theorems": [
    "Horus.PyNode.once_partial",
    "Horus.PyNode.runs_once_partial",
    "Horus.PyNode.handler_notifies",
    "Horus.PyNode.stopped_skips",
    "Horus.PyNode.type_error_twice",
    "Horus.PyNode.type_error_hidden",
    "Horus.PyNode.interrupt_ends",
    "Horus.PyNode.init_interrupt"
   ],
   "note": "unless the body raises TypeError, when the callback is run a second time without its argument; an interrupt in init leaves the scheduler running with every Python node skipped"
  },
  {
   "property": "C196",
   "status": "partial",
   "theorems": [
    "Horus.PySched.nodes_kept",
    "Horus.PySched.no_reentry",
    "Horus.PySched.stop_stays",
    "Horus.PySched.has_node_partial",
    "Horus.PySched.running_denies",
    "Horus.PySched.running_before",
    "Horus.PySched.one_run",
    "Horus.PySched.length_positive",
    "Horus.PySched.zero_forever"
   ],
   "note": "queries are right while it does not run; while it runs it reports no nodes, before it runs it reports running; it can be run once; a duration of 0 means for ever"
  },
  {
   "property": "C197",
   "status": "partial",
   "theorems": [
    "Horus.PySched.each_once",
    "Horus.PySched.has_msg_partial",
    "Horus.PySched.has_msg_then",
    "Horus.PySched.recv_all_partial",
    "Horus.PySched.none_hides"
   ],
   "note": "each message once, in order, always; has_msg and recv_all are right when no message is None"
  },
  {
   "property": "C198",
   "status": "partial",
   "theorems": [
    "Horus.PySched.plain_arrives_partial",
    "Horus.PySched.nan_none",
    "Horus.PySched.tuple_list",
    "Horus.PySched.refused"
   ],
   "note": "for values made of None, bool, int, finite float, str, list and str-keyed dict; not-a-number and infinities arrive as None and tuples as lists"
  },
  {
   "property": "C199",
   "status": "partial",
   "theorems": [
    "Horus.PoolWait.slots_kept",
    "Horus.PoolWait.never_stuck",
    "Horus.PoolWait.notify_wakes",
    "Horus.PoolWait.no_lost_wakeup_partial",
    "Horus.PoolWait.timeout_honest",
    "Horus.PoolWait.woken_tries_again",
    "Horus.PoolWait.other_object_sleeps",
    "Horus.PoolWait.longest_wait_panics",
    "Horus.PoolWait.deadline_ok"
   ],
   "note": "among threads that share one pool object; a slot put back through another object (another process) wakes nobody; Duration::MAX panics"
  },
  {
   "property": "C200",
   "status": "partial",
   "theorems": [
    "Horus.NetLoop.in_order",
    "Horus.NetLoop.all_handled_partial",
    "Horus.NetLoop.left_behind",
    "Horus.NetLoop.stays_behind",
    "Horus.NetLoop.timer_soon",
    "Horus.NetLoop.timeout_works"
   ],
   "note": "unless more than 256 datagrams wait at one wakeup: then the rest stays in the socket until another datagram arrives"
  },
  {
   "property": "C201",
   "status": "partial",
   "theorems": [
    "Horus.Guard.late_start_partial",
    "Horus.Guard.truth_kept_partial",
    "Horus.Guard.own_commands_safe_partial",
    "Horus.Guard.open_topic_forgotten",
    "Horus.Guard.own_commands_overwritten",
    "Horus.Guard.clone_forgotten",
    "Horus.Guard.ghost_topic"
   ],
   "note": "without clones, and with handles dropped only as the last on their topic; otherwise an open topic is forgotten and a remote peer may be let overwrite a topic this process publishes"
  },
  {
   "property": "C202",
   "status": "partial",
   "theorems": [
    "Horus.RecordDiff.total_capped",
    "Horus.RecordDiff.verdict_partial",
    "Horus.RecordDiff.limit_zero_blind",
    "Horus.RecordDiff.lookup_tidy",
    "Horus.RecordDiff.compared_iff",
    "Horus.RecordDiff.self_same",
    "Horus.RecordDiff.extra_node_ignored",
    "Horus.RecordDiff.shared_name_differs"
   ],
   "note": "for a limit above zero and sessions with one readable file per node; nodes in only one session are not mentioned"
  },
  {
   "property": "C203",
   "status": "partial",
   "theorems": [
    "Horus.RecordPrune.nothing_unasked",
    "Horus.RecordPrune.only_old_deleted",
    "Horus.RecordPrune.named_kept",
    "Horus.RecordPrune.age_within_second",
    "Horus.RecordPrune.order_swapped",
    "Horus.RecordPrune.bad_name_panics",
    "Horus.RecordPrune.huge_limit_deletes",
    "Horus.RecordPrune.delete_gone",
    "Horus.RecordPrune.clean_all",
    "Horus.RecordPrune.shadow_remains"
   ],
   "note": "ages are right to within a second; enormous limits wrap; some names make it panic; a session present in two search directories survives deletion"
  },
  {
   "property": "C204",
   "status": "partial",
   "theorems": [
    "Horus.RecordExport.row_read",
    "Horus.RecordExport.file_read",
    "Horus.RecordExport.export_override",
    "Horus.RecordExport.override_reads",
    "Horus.RecordExport.outputs_told_partial",
    "Horus.RecordExport.ascii_no_panic_partial",
    "Horus.RecordExport.plus_accepted",
    "Horus.RecordExport.letter_panics",
    "Horus.RecordExport.semicolon_ambiguous"
   ],
   "note": "the outputs column is only unambiguous for topics without a semicolon; overrides with letters outside ASCII may crash"
  },
  {
   "property": "C205",
   "status": "partial",
   "theorems": [
    "Horus.TfRecord.read_back_partial",
    "Horus.TfRecord.clean_failures_read",
    "Horus.TfRecord.killed_loses_all",
    "Horus.TfRecord.before_failure_kept",
    "Horus.TfRecord.read_bounded",
    "Horus.TfRecord.torn_entry_shifts",
    "Horus.TfRecord.static_update_lost",
    "Horus.TfRecord.forged_count_panics"
   ],
   "note": "when no write fails and the recorder ends normally; a killed recorder leaves a file that reads as empty"
  },
  {
   "property": "C206",
   "status": "partial",
   "theorems": [
    "Horus.TfDiff.frames_spec",
    "Horus.TfDiff.ordered_connected",
    "Horus.TfDiff.pose_truth",
    "Horus.TfDiff.verdict_poses_partial",
    "Horus.TfDiff.verdict_truth_partial",
    "Horus.TfDiff.one_sided_reported",
    "Horus.TfDiff.late_parent_unseen",
    "Horus.TfDiff.reparent_mixed"
   ],
   "note": "for recordings in which each frame comes after the frame it hangs on"
  },
  {
   "property": "C207",
   "status": "proved",
   "theorems": [
    "Horus.Msg.Lex.lex_iff",
    "Horus.Msg.Lex.source_unique",
    "Horus.Msg.Lex.places_right",
    "Horus.Msg.Lex.text_to_messages",
    "Horus.Msg.Lex.slashes_and_digits"
   ],
   "note": ""
  },
  {
   "property": "C208",
   "status": "partial",
   "theorems": [
    "Horus.RtReport.places_inside",
    "Horus.RtReport.min_max_exact",
    "Horus.RtReport.percentiles_exact",
    "Horus.RtReport.mean_exact",
    "Horus.RtReport.production_partial",
    "Horus.RtReport.issues_grade",
    "Horus.RtReport.steady_development",
    "Horus.RtReport.perfect_development",
    "Horus.RtReport.unmeasured_production",
    "Horus.RtReport.stalled_production",
    "Horus.RtReport.ready_but_standard"
   ],
   "note": "the statistics are exact; the grade compares the length of the tick intervals, not their deviation, with the limits"
  },
  {
   "property": "C209",
   "status": "partial",
   "theorems": [
    "Horus.RtStats.counts_exact",
    "Horus.RtStats.worst_last_exact",
    "Horus.RtStats.averages_bounded",
    "Horus.RtStats.constant_exact",
    "Horus.RtStats.estimate_above_average",
    "Horus.RtStats.estimate_too_low",
    "Horus.RtStats.estimate_too_high",
    "Horus.RtStats.fast_node_zero"
   ],
   "note": "rational arithmetic in place of f64; the 99th percentile is only an estimate"
  },
  {
   "property": "C210",
   "status": "partial",
   "theorems": [
    "Horus.Priority.safety_sent_with_care",
    "Horus.Priority.others_sent_once",
    "Horus.Priority.precedence",
    "Horus.Priority.system_topics",
    "Horus.Priority.configured",
    "Horus.Priority.realtime_never"
   ],
   "note": "all but the care for nodes with a budget, which is never taken"
  },
  {
   "property": "C211",
   "status": "partial",
   "theorems": [
    "Horus.PkgSource.known_iff",
    "Horus.PkgSource.known_once",
    "Horus.PkgSource.known_twice",
    "Horus.PkgSource.high_means_known",
    "Horus.PkgSource.spelling_known",
    "Horus.PkgSource.network_last",
    "Horus.PkgSource.flagged_sound",
    "Horus.PkgSource.declared_kept",
    "Horus.PkgSource.unknown_from_registry",
    "Horus.PkgSource.network_prefers_crates",
    "Horus.PkgSource.mixed_false_error",
    "Horus.PkgSource.explicit_registry_overridden",
    "Horus.PkgSource.dual_in_both",
    "Horus.PkgSource.sys_spelling"
   ],
   "note": "all but the disagreements listed"
  },
  {
   "property": "C212",
   "status": "partial",
   "theorems": [
    "Horus.Prefixed.tools_succeed_iff",
    "Horus.Prefixed.tools_worst",
    "Horus.Prefixed.run_fails_partial",
    "Horus.Prefixed.text_shown",
    "Horus.Prefixed.shown_written",
    "Horus.Prefixed.unstarted_succeeds",
    "Horus.Prefixed.bytes_cut_off"
   ],
   "note": "complete for fmt, lint and doc; `horus run` ignores programs that could not be started"
  },
  {
   "property": "C213",
   "status": "partial",
   "theorems": [
    "Horus.Ignore.star_sound",
    "Horus.Ignore.trailing_star_exact",
    "Horus.Ignore.one_star_exact",
    "Horus.Ignore.star_missed",
    "Horus.Ignore.double_star_exact",
    "Horus.Ignore.double_star_wrong",
    "Horus.Ignore.plain_exact",
    "Horus.Ignore.directory_exact",
    "Horus.Ignore.directory_inside",
    "Horus.Ignore.wrongly_ignored",
    "Horus.Ignore.detect_exact",
    "Horus.Ignore.detect_perm",
    "Horus.Ignore.listed_not_ignored",
    "Horus.Ignore.ignored_file_run",
    "Horus.Ignore.glob_targets",
    "Horus.Ignore.bracket_file_lost",
    "Horus.Ignore.named_target"
   ],
   "note": "a pattern with stars never matches too much and one ending in a star matches exactly; the rest disagrees with the usual meaning as listed"
  },
  {
   "property": "C214",
   "status": "partial",
   "theorems": [
    "Horus.Lint.lists_honest",
    "Horus.Lint.reported_exact",
    "Horus.Lint.clean_silent",
    "Horus.Lint.report_sorted",
    "Horus.Lint.sections_unchecked",
    "Horus.Lint.misspelt_ignored",
    "Horus.Lint.levenshtein_exact",
    "Horus.Lint.suggestion_nearest",
    "Horus.Lint.suggestion_found",
    "Horus.Lint.suggestion_iff",
    "Horus.Lint.located",
    "Horus.Lint.line_of_section",
    "Horus.Lint.line_found",
    "Horus.Lint.section_line_wrong",
    "Horus.Lint.comment_hides_line"
   ],
   "note": "exact for the top level and four sections; other sections with fixed keys are not checked"
  },
  {
   "property": "C215",
   "status": "partial",
   "theorems": [
    "Horus.TfReader.shown_exact",
    "Horus.TfReader.moved_frame_misshown",
    "Horus.TfReader.all_registered",
    "Horus.TfReader.shallow_linked",
    "Horus.TfReader.topological_linked",
    "Horus.TfReader.deep_detached",
    "Horus.TfReader.printed_exact",
    "Horus.TfReader.loop_not_printed"
   ],
   "note": "linking is proved for trees of depth two and for orders with parents first"
  },
  {
   "property": "C216",
   "status": "partial",
   "theorems": [
    "Horus.Peers.acted_on",
    "Horus.Peers.never_acted_on",
    "Horus.Peers.slow_heartbeat_never_stops",
    "Horus.Peers.action_exact",
    "Horus.Peers.misspelt_action",
    "Horus.Peers.timer_peer"
   ],
   "note": "holds while discovery has not timed the peer out"
  },
  {
   "property": "C217",
   "status": "partial",
   "theorems": [
    "Horus.FfiPool.alloc_spec",
    "Horus.FfiPool.release_spec",
    "Horus.FfiPool.memory_exclusive",
    "Horus.FfiPool.image_in_use",
    "Horus.FfiPool.double_release",
    "Horus.FfiPool.release_once",
    "Horus.FfiPool.all_returned",
    "Horus.FfiPool.images_careful",
    "Horus.FfiPool.lost_for_good",
    "Horus.FfiPool.tensor_leaks",
    "Horus.FfiPool.leak_exhausts",
    "Horus.FfiPool.released_data_shared",
    "Horus.FfiPool.failure_counted",
    "Horus.FfiPool.imageSize_partial",
    "Horus.FfiPool.large_image_size"
   ],
   "note": "all objects returned is proved for programs that release every tensor; images need no care"
  },
  {
   "property": "C218",
   "status": "partial",
   "theorems": [
    "Horus.FfiLayout.packed_dense",
    "Horus.FfiLayout.fields_disjoint",
    "Horus.FfiLayout.field_inside",
    "Horus.FfiLayout.field_aligned",
    "Horus.FfiLayout.message_arrives",
    "Horus.FfiLayout.copy_outside",
    "Horus.FfiLayout.headers_meet_contract",
    "Horus.FfiLayout.receive_in_bounds",
    "Horus.FfiLayout.shared_messages_arrive",
    "Horus.FfiLayout.shared_declarations",
    "Horus.FfiLayout.uncovered",
    "Horus.FfiLayout.contract_sound",
    "Horus.FfiLayout.added_field_unseen",
    "Horus.FfiLayout.widened_field_unseen",
    "Horus.FfiLayout.size_mismatch_overruns"
   ],
   "note": "field-by-field for the 20 types whose Rust struct is in the repository; for the others (crate horus_robotics) sizes and offsets only, as recorded in the contract"
  },
  {
   "property": "C219",
   "status": "partial",
   "theorems": [
    "Horus.Msg.functions_distinct_partial",
    "Horus.Msg.underscore_collides",
    "Horus.Msg.packages_collide",
    "Horus.Msg.packages_same_length",
    "Horus.Msg.cpp_names_distinct_partial",
    "Horus.Msg.class_name_collides",
    "Horus.Msg.members_distinct_partial",
    "Horus.Msg.accessor_collides",
    "Horus.Msg.keyword_accepted",
    "Horus.Msg.long_array_accepted",
    "Horus.Msg.nested_type_missing",
    "Horus.Msg.nested_hash_blind"
   ],
   "note": "names are distinct under conditions the generator does not check; the rest are counterexamples"
  },
  {
   "property": "C220",
   "status": "partial",
   "theorems": [
    "Horus.NoAlloc.enforced_partial",
    "Horus.NoAlloc.no_false_alarm",
    "Horus.NoAlloc.names_node",
    "Horus.NoAlloc.scheduler_unaffected",
    "Horus.NoAlloc.others_unaffected",
    "Horus.NoAlloc.rt_steady_partial",
    "Horus.NoAlloc.main_steady_partial",
    "Horus.NoAlloc.first_tick_free",
    "Horus.NoAlloc.caught_escapes",
    "Horus.NoAlloc.remote_escapes",
    "Horus.NoAlloc.held_turn_warms"
   ],
   "note": "enforced for nodes that do not catch panics themselves and allocate on the thread of the tick; the exceptions are proved"
  },
  {
   "property": "C221",
   "status": "partial",
   "theorems": [
    "Horus.Device.text_roundtrip",
    "Horus.Device.parse_sound",
    "Horus.Device.dlpack_roundtrip_partial",
    "Horus.Device.dlpack_large",
    "Horus.Device.unknown_kind",
    "Horus.Device.junk_accepted"
   ],
   "note": "DLPack round trip for indices below 2^31"
  },
  {
   "property": "C222",
   "status": "partial",
   "theorems": [
    "Horus.Observe.observed_last_partial",
    "Horus.Observe.observed_behind",
    "Horus.Observe.observed_ahead",
    "Horus.Observe.uncounted_unnoticed",
    "Horus.Observe.drop_is_news",
    "Horus.Observe.observed_mid_send",
    "Horus.Observe.counters_exact",
    "Horus.Observe.quiet_counts_nothing",
    "Horus.Observe.dropped_counts_twice"
   ],
   "note": "exact when every message goes through `send` and none is dropped; the drift is proved exactly"
  },
  {
   "property": "C223",
   "status": "partial",
   "theorems": [
    "Horus.Features.all_features",
    "Horus.Features.driver_on_partial",
    "Horus.Features.environment_wins",
    "Horus.Features.environment_empty",
    "Horus.Features.disabled_but_on",
    "Horus.Features.group_backend_lost",
    "Horus.Features.group_only_in_toml",
    "Horus.Features.use_ignored",
    "Horus.Features.source_order",
    "Horus.Features.unreachable_silent"
   ],
   "note": "what is switched on is exact; group names break the rest"
  },
  {
   "property": "C224",
   "status": "proved",
   "theorems": [
    "Horus.Mock.fifo",
    "Horus.Mock.bounded",
    "Horus.Mock.send_fails_iff",
    "Horus.Mock.send_accounting",
    "Horus.Mock.latest_forgotten",
    "Horus.Mock.sent_counts_failures",
    "Horus.Mock.panics_from"
   ],
   "note": "first in first out and exact fault pattern under all call histories; three theorems record how the doubles differ from the real thing"
  },
  {
   "property": "C225",
   "status": "partial",
   "theorems": [
    "Horus.Pod.plain_accepted",
    "Horus.Pod.owned_refused",
    "Horus.Pod.accepted_iff",
    "Horus.Pod.flag_accepted",
    "Horus.Pod.enum_accepted",
    "Horus.Pod.address_accepted",
    "Horus.Pod.byte_refused"
   ],
   "note": "holds for plain and owned types; types with flags, enums or references inside are accepted too"
  },
  {
   "property": "C226",
   "status": "partial",
   "theorems": [
    "Horus.PyTopic.name_is_key_partial",
    "Horus.PyTopic.name_given",
    "Horus.PyTopic.node_meets_topic",
    "Horus.PyTopic.node_capacity",
    "Horus.PyTopic.classes_apart",
    "Horus.PyTopic.classes_typed",
    "Horus.PyTopic.capacity_exact",
    "Horus.PyTopic.capacity_wraps",
    "Horus.PyTopic.network_is_local",
    "Horus.PyTopic.string_lowered",
    "Horus.PyTopic.capital_splits",
    "Horus.PyTopic.string_typed",
    "Horus.PyTopic.string_not_class",
    "Horus.PyTopic.class_by_name",
    "Horus.PyTopic.never_detected"
   ],
   "note": "holds for names without `@` given as endpoint or by class; the rest are counterexamples"
  },
  {
   "property": "C227",
   "status": "partial",
   "theorems": [
    "Horus.PyView.tensor_view_inside",
    "Horus.PyView.field_view_inside_partial",
    "Horus.PyView.image_new_view",
    "Horus.PyView.forged_stride_escapes",
    "Horus.PyView.forged_stride_backwards",
    "Horus.PyView.outside_is_null",
    "Horus.PyView.third_dimension_refused",
    "Horus.PyView.squeeze_same",
    "Horus.PyView.unsqueeze_same"
   ],
   "note": "proved for tensors from anywhere and for images made by this library; images from elsewhere escape"
  },
  {
   "property": "C228",
   "status": "partial",
   "theorems": [
    "Horus.PyNumpy.names_back",
    "Horus.PyNumpy.dlpack_exact",
    "Horus.PyNumpy.enc_sizes",
    "Horus.PyNumpy.tensor_back",
    "Horus.PyNumpy.cloud_back_partial",
    "Horus.PyNumpy.cloud_takes",
    "Horus.PyNumpy.cloud_swapped",
    "Horus.PyNumpy.metre_swapped",
    "Horus.PyNumpy.cloud_bf16",
    "Horus.PyNumpy.depth_back_partial",
    "Horus.PyNumpy.depth_swapped",
    "Horus.PyNumpy.infer_right",
    "Horus.PyNumpy.image_back_partial",
    "Horus.PyNumpy.image_flattens",
    "Horus.PyNumpy.image_reinterprets"
   ],
   "note": "holds for tensors without restriction, and for native-endian arrays elsewhere; the rest are counterexamples"
  },
  {
   "property": "C229",
   "status": "partial",
   "theorems": [
    "Horus.Publish.sent_clean",
    "Horus.Publish.sent_exact_partial",
    "Horus.Publish.strip_exact_partial",
    "Horus.Publish.no_patch_header",
    "Horus.Publish.link_sent",
    "Horus.Publish.dirs_sent",
    "Horus.Publish.slash_ignored",
    "Horus.Publish.double_ending_ignored",
    "Horus.Publish.named_like_key",
    "Horus.Publish.refused_left",
    "Horus.Publish.spaced_patch_kept",
    "Horus.Publish.patchwork_dropped"
   ],
   "note": "the archive holds exactly the files none of whose path parts is excluded; the rest are counterexamples"
  },
  {
   "property": "C230",
   "status": "partial",
   "theorems": [
    "Horus.ParamCli.fails_iff",
    "Horus.ParamCli.set_get_partial",
    "Horus.ParamCli.set_others",
    "Horus.ParamCli.set_hidden",
    "Horus.ParamCli.override_made_permanent",
    "Horus.ParamCli.defaults_frozen",
    "Horus.ParamCli.delete_gets",
    "Horus.ParamCli.delete_gone_partial",
    "Horus.ParamCli.deleted_default_back",
    "Horus.ParamCli.delete_others",
    "Horus.ParamCli.reset_gets",
    "Horus.ParamCli.load_gets",
    "Horus.ParamCli.broken_stays",
    "Horus.ParamCli.crash_drops",
    "Horus.ParamCli.update_lost",
    "Horus.ParamCli.values_agree_partial",
    "Horus.ParamCli.nan_two_ways",
    "Horus.ParamCli.json_two_ways"
   ],
   "note": "the commands do what they say for parameters the environment does not name, one command at a time; the rest are counterexamples"
  },
  {
   "property": "C231",
   "status": "partial",
   "theorems": [
    "Horus.Imports.import_exact",
    "Horus.Imports.from_exact",
    "Horus.Imports.relative_none",
    "Horus.Imports.library_installed",
    "Horus.Imports.future_installed",
    "Horus.Imports.comment_installed",
    "Horus.Imports.prose_installed",
    "Horus.Imports.second_statement_lost",
    "Horus.Imports.rename_in_name",
    "Horus.Imports.rust_only_horus",
    "Horus.Imports.requirement_same",
    "Horus.Imports.pip_one_partial",
    "Horus.Imports.second_constraint_in_name",
    "Horus.Imports.address_as_version",
    "Horus.Imports.cache_shared",
    "Horus.Imports.install_fresh",
    "Horus.Imports.excluded_given"
   ],
   "note": "exact for well-formed one-line statements and single constraints; the rest are counterexamples"
  },
  {
   "property": "C232",
   "status": "partial",
   "theorems": [
    "Horus.Cache.clean_exact",
    "Horus.Cache.used_kept_partial",
    "Horus.Cache.nothing_added",
    "Horus.Cache.unregistered_removed",
    "Horus.Cache.unreadable_removed",
    "Horus.Cache.global_removed",
    "Horus.Cache.old_version_kept",
    "Horus.Cache.reported_removed"
   ],
   "note": "packages used by registered, readable workspaces are kept; the rest are counterexamples"
  },
  {
   "property": "C233",
   "status": "partial",
   "theorems": [
    "Horus.Urdf.sensors_exact",
    "Horus.Urdf.warned_iff",
    "Horus.Urdf.self_closing_swallows",
    "Horus.Urdf.comment_counts",
    "Horus.Urdf.other_attribute",
    "Horus.Urdf.single_quotes_missed"
   ],
   "note": "exact for descriptions written with double quotes, `name` and `type` only, and closed blocks; the rest are counterexamples"
  },
  {
   "property": "C234",
   "status": "partial",
   "theorems": [
    "Horus.LogView.passes_iff",
    "Horus.LogView.view_exact",
    "Horus.LogView.newest_shown_partial",
    "Horus.LogView.midnight_hides",
    "Horus.LogView.buffer_same",
    "Horus.LogView.unknown_level_shows_all",
    "Horus.LogView.since_exact_partial",
    "Horus.LogView.west_hides_all",
    "Horus.LogView.east_shows_older",
    "Horus.LogView.yesterday_shown",
    "Horus.LogView.since_refused_iff",
    "Horus.LogView.since_meaning_partial",
    "Horus.LogView.since_panics",
    "Horus.LogView.follow_exact_partial",
    "Horus.LogView.raced_poll",
    "Horus.LogView.clear_leaves_files",
    "Horus.LogView.forwarded_iff_partial",
    "Horus.LogView.filter_names",
    "Horus.LogView.bridged_severity",
    "Horus.LogView.trace_never",
    "Horus.LogView.off_is_warn",
    "Horus.LogView.first_level_stays"
   ],
   "note": "exact within one day in UTC and for unraced polls; the rest are counterexamples"
  },
  {
   "property": "C235",
   "status": "partial",
   "theorems": [
    "Horus.ApiDiff.removed_fails",
    "Horus.ApiDiff.fails_exact_partial",
    "Horus.ApiDiff.same_quiet",
    "Horus.ApiDiff.function_changed_fails",
    "Horus.ApiDiff.field_removed_partial",
    "Horus.ApiDiff.variant_removed_partial",
    "Horus.ApiDiff.trait_more_partial",
    "Horus.ApiDiff.same_stem_hides",
    "Horus.ApiDiff.not_looked_at",
    "Horus.ApiDiff.never_breaking",
    "Horus.ApiDiff.missed_breaking"
   ],
   "note": "removals and function changes are always caught where file names are distinct; fields and variants only when their names do not occur in what is left; the rest are counterexamples"
  },
  {
   "property": "C236",
   "status": "partial",
   "theorems": [
    "Horus.Migrate.dry_same",
    "Horus.Migrate.migrated_exact",
    "Horus.Migrate.cargo_kept_partial",
    "Horus.Migrate.others_kept",
    "Horus.Migrate.stopped_safe",
    "Horus.Migrate.rerun_quiet",
    "Horus.Migrate.stopped_for_good",
    "Horus.Migrate.backup_replaced",
    "Horus.Migrate.dev_dropped",
    "Horus.Migrate.inline_dropped",
    "Horus.Migrate.clash_loses",
    "Horus.Migrate.pep_exact_partial",
    "Horus.Migrate.found_partial",
    "Horus.Migrate.cmake_unseen",
    "Horus.Migrate.cmake_block"
   ],
   "note": "files are never lost before the backup is reused; dependencies of distinct names in plain tables arrive; the rest are counterexamples"
  },
  {
   "property": "C237",
   "status": "partial",
   "theorems": [
    "Horus.ShellRc.install_appends_partial",
    "Horus.ShellRc.install_again",
    "Horus.ShellRc.install_line",
    "Horus.ShellRc.uninstall_untouched",
    "Horus.ShellRc.uninstall_exact_partial",
    "Horus.ShellRc.cycle_adds_blank",
    "Horus.ShellRc.other_encoding_lost",
    "Horus.ShellRc.interrupted_empty",
    "Horus.ShellRc.none_installed",
    "Horus.ShellRc.own_line_lost"
   ],
   "note": "exact for readable files without carriage returns; the rest are counterexamples"
  },
  {
   "property": "C238",
   "status": "partial",
   "theorems": [
    "Horus.RunBin.path_leads_back",
    "Horus.RunBin.target_inside",
    "Horus.RunBin.target_exported",
    "Horus.RunBin.build_fails_iff",
    "Horus.RunBin.run_file_current",
    "Horus.RunBin.run_file_broken",
    "Horus.RunBin.run_many_current_partial",
    "Horus.RunBin.same_stem_fails",
    "Horus.RunBin.mixed_run_stale",
    "Horus.RunBin.python_args_lost",
    "Horus.RunBin.file_ignored",
    "Horus.RunBin.run_root_current_partial",
    "Horus.RunBin.manifest_runs_old",
    "Horus.RunBin.target_differs",
    "Horus.RunBin.manifest_not_rebuilt",
    "Horus.RunBin.bare_manifest_fails",
    "Horus.RunBin.project_name_partial",
    "Horus.RunBin.wrong_name"
   ],
   "note": "exact for one file and for several Rust files in a project without its own `Cargo.toml`; the rest are counterexamples"
  },
  {
   "property": "C239",
   "status": "partial",
   "theorems": [
    "Horus.ErrText.begins_with_message",
    "Horus.ErrText.keeps_cause_partial",
    "Horus.ErrText.all_parts_read_partial",
    "Horus.ErrText.same_context_again",
    "Horus.ErrText.label_lost",
    "Horus.ErrText.said_twice",
    "Horus.ErrText.context_permanent",
    "Horus.ErrText.context_not_retried",
    "Horus.ErrText.service_transient_lost",
    "Horus.ErrText.transient_exact",
    "Horus.ErrText.fatal_exact",
    "Horus.ErrText.service_transient"
   ],
   "note": "every message and cause can be read unless a cause only puts a label before the message; the rest are counterexamples"
  },
  {
   "property": "C240",
   "status": "partial",
   "theorems": [
    "Horus.NetUpdate.unshared_closed",
    "Horus.NetUpdate.published_is_exported",
    "Horus.NetUpdate.subscribed_is_imported",
    "Horus.NetUpdate.reader_origin",
    "Horus.NetUpdate.never_published",
    "Horus.NetUpdate.destinations_iff",
    "Horus.NetUpdate.written_to_its_topic_partial",
    "Horus.NetUpdate.auto_no_echo_partial",
    "Horus.NetUpdate.second_peer_ignored",
    "Horus.NetUpdate.reader_outlives_publisher",
    "Horus.NetUpdate.other_type_sent",
    "Horus.NetUpdate.colliding_names",
    "Horus.NetUpdate.echo_never_stops",
    "Horus.NetUpdate.stale_reader_relays"
   ],
   "note": "opening and closing is proved for topics used one way here, and for exporting when every peer that shares a topic subscribes to it; the default import mode does not echo while readers belong to publishers; the rest are counterexamples"
  },
  {
   "property": "C241",
   "status": "partial",
   "theorems": [
    "Horus.PoolAttach.open_in_bounds",
    "Horus.PoolAttach.open_only_own",
    "Horus.PoolAttach.first_slot_inside",
    "Horus.PoolAttach.open_agrees",
    "Horus.PoolAttach.attach_agrees_partial",
    "Horus.PoolAttach.attach_checked",
    "Horus.PoolAttach.attach_disagrees",
    "Horus.PoolAttach.slots_over_data",
    "Horus.PoolAttach.wild_free_list",
    "Horus.PoolAttach.odd_alignment_unopenable",
    "Horus.PoolAttach.le_alignUp"
   ],
   "note": "open is proved for every file up to the free list; agreement is proved for open, and for new with equal slot count and alignment; the rest are counterexamples"
  },
  {
   "property": "C242",
   "status": "partial",
   "theorems": [
    "Horus.Refresh.reported_is_peak",
    "Horus.Refresh.first_refresh",
    "Horus.Refresh.reported_monotone",
    "Horus.Refresh.reported_exact",
    "Horus.Refresh.healthy_iff",
    "Horus.Refresh.health_by_errors",
    "Horus.Refresh.reset_announced",
    "Horus.Refresh.warned_once",
    "Horus.Refresh.reset_masks_critical",
    "Horus.Refresh.achieved_iff",
    "Horus.Refresh.reported_iff",
    "Horus.Refresh.executor_always_reported",
    "Horus.Refresh.executor_settings_lost",
    "Horus.Refresh.main_settings",
    "Horus.Refresh.unslotted_reports_zero",
    "Horus.Refresh.start_and_errors_wrong",
    "Horus.Refresh.refresh_due",
    "Horus.Refresh.refresh_interval",
    "Horus.Refresh.health_agrees_partial",
    "Horus.Refresh.health_disagrees",
    "Horus.Refresh.derive_iff",
    "Horus.Refresh.status_topic_is_action"
   ],
   "note": "the counts, health, warning, rate and cadence parts are proved for every history; settings of executor nodes, start time, error count and stopped executor nodes are refuted"
  },
  {
   "property": "C243",
   "status": "partial",
   "theorems": [
    "Horus.LogAttach.caps_in_range",
    "Horus.LogAttach.cap_respected",
    "Horus.LogAttach.equal_capacity_safe_partial",
    "Horus.LogAttach.sequential_open_safe",
    "Horus.LogAttach.overlapping_open_shrinks",
    "Horus.LogAttach.equal_capacity_reads",
    "Horus.LogAttach.larger_reader_misses",
    "Horus.LogAttach.smaller_reader_blind"
   ],
   "note": "proved for processes with one capacity under every schedule, and for any capacities when opens do not overlap; with different capacities both the mapping and the reading fail"
  },
  {
   "property": "C244",
   "status": "partial",
   "theorems": [
    "Horus.FfiText.copyOut_frame",
    "Horus.FfiText.copyOut_nowhere",
    "Horus.FfiText.copyOut_cstr",
    "Horus.FfiText.copyOut_whole",
    "Horus.FfiText.cstr_unique",
    "Horus.FfiText.cut_invisible",
    "Horus.FfiText.no_size_query",
    "Horus.FfiText.action_size_query",
    "Horus.FfiText.families_agree",
    "Horus.FfiText.null_reports_length",
    "Horus.FfiText.inner_zero",
    "Horus.FfiText.huge_is_error",
    "Horus.FfiText.found_nonneg",
    "Horus.FfiText.cut_inside_character"
   ],
   "note": "memory safety and the terminated prefix are proved for all inputs; the last clause fails: a cut has exactly the effect and result of the shorter text"
  },
  {
   "property": "C245",
   "status": "partial",
   "theorems": [
    "Horus.FfiText.roundtrip",
    "Horus.FfiText.set_frame",
    "Horus.FfiText.nan_accepted_then_missing",
    "Horus.FfiText.float_iff",
    "Horus.FfiText.int_float_one_way",
    "Horus.FfiText.not_found_ambiguous",
    "Horus.FfiText.found_iff"
   ],
   "note": "proved for integers, booleans, texts and finite floats; NaN and infinities are accepted and lost, and \"not found\" also covers a value of another kind"
  },
  {
   "property": "C246",
   "status": "partial",
   "theorems": [
    "Horus.FfiText.log_level",
    "Horus.FfiText.log_text",
    "Horus.FfiText.cpp_no_time",
    "Horus.FfiText.sorted_split",
    "Horus.FfiText.untimed_hidden",
    "Horus.FfiText.untimed_survives_since",
    "Horus.FfiText.view_sound",
    "Horus.FfiText.newest_error_hidden"
   ],
   "note": "recording of level and text proved; the showing by time fails because no time is recorded"
  },
  {
   "property": "C247",
   "status": "partial",
   "theorems": [
    "Horus.NodeMacro.accepted_iff",
    "Horus.NodeMacro.recorded_iff",
    "Horus.NodeMacro.order_irrelevant",
    "Horus.NodeMacro.constructor_complete",
    "Horus.NodeMacro.topics_iff",
    "Horus.NodeMacro.bodies",
    "Horus.NodeMacro.no_safe_state",
    "Horus.NodeMacro.written_safe_state_unused",
    "Horus.NodeMacro.metadata",
    "Horus.NodeMacro.node_name",
    "Horus.NodeMacro.snake_no_upper",
    "Horus.NodeMacro.snake_letters",
    "Horus.NodeMacro.snake_idem",
    "Horus.NodeMacro.camel_distinct",
    "Horus.NodeMacro.acronyms_collide",
    "Horus.NodeMacro.default_plain",
    "Horus.NodeMacro.default_generic",
    "Horus.NodeMacro.generics_collide"
   ],
   "note": "acceptance, order, fields and bodies are proved in full; the safe-state methods cannot be given and names are unique only for camel-case struct names"
  },
  {
   "property": "C248",
   "status": "partial",
   "theorems": [
    "Horus.Gateway.reply_is_own",
    "Horus.Gateway.at_most_once",
    "Horus.Gateway.only_asked",
    "Horus.Gateway.bad_payload_silent",
    "Horus.Gateway.given_up_never_runs",
    "Horus.Gateway.cleaned_up",
    "Horus.Gateway.taken_not_run",
    "Horus.Gateway.answered",
    "Horus.Gateway.sweep_exact",
    "Horus.Gateway.read_too_early",
    "Horus.Gateway.answer_thrown_away",
    "Horus.Gateway.executed_after_timeout",
    "Horus.Gateway.same_number"
   ],
   "note": "correlation, at-most-once, clean-up and progress hold in every history with distinct numbers; that a request in order is answered fails when a file is read while it is being written"
  },
  {
   "property": "C249",
   "status": "partial",
   "theorems": [
    "Horus.GoalFile.handled_sent",
    "Horus.GoalFile.once_per_server",
    "Horus.GoalFile.once_with_one",
    "Horus.GoalFile.handled_if_left",
    "Horus.GoalFile.sent_fate",
    "Horus.GoalFile.overwritten",
    "Horus.GoalFile.removed_unread",
    "Horus.GoalFile.read_too_early",
    "Horus.GoalFile.executed_twice"
   ],
   "note": "what is handled is right and, with one server, handled once; that what is sent is handled is refuted"
  },
  {
   "property": "C250",
   "status": "partial",
   "theorems": [
    "Horus.CliNames.call_exact",
    "Horus.CliNames.exact_first",
    "Horus.CliNames.resolve_known",
    "Horus.CliNames.tail_search_useless",
    "Horus.CliNames.slash_uncallable",
    "Horus.CliNames.type_name_works",
    "Horus.CliNames.snake_plain",
    "Horus.CliNames.request_contained",
    "Horus.CliNames.goal_escapes",
    "Horus.CliNames.goal_absolute",
    "Horus.CliNames.neighbour_in_the_way"
   ],
   "note": "resolution and containment of requests are proved in full; services with a '/' cannot be called and goals are not contained"
  },
  {
   "property": "C251",
   "status": "partial",
   "theorems": [
    "Horus.ForeignArgs.no_foreign_option",
    "Horus.ForeignArgs.dash_refused",
    "Horus.ForeignArgs.requirement_is_name",
    "Horus.ForeignArgs.no_consent_nothing",
    "Horus.ForeignArgs.installs_missing",
    "Horus.ForeignArgs.nothing_to_do",
    "Horus.ForeignArgs.debian_accepted",
    "Horus.ForeignArgs.one_refused_all",
    "Horus.ForeignArgs.python_failure",
    "Horus.ForeignArgs.closed_input_consents",
    "Horus.ForeignArgs.dash_removes",
    "Horus.ForeignArgs.real_names_refused",
    "Horus.ForeignArgs.project_option_read",
    "Horus.ForeignArgs.table_only",
    "Horus.ForeignArgs.cpp_consent"
   ],
   "note": "options, requirements and consent given at a prompt are proved in full; a closed input counts as consent, names ending in '-' remove packages, and C++ projects are not checked"
  },
  {
   "property": "C252",
   "status": "partial",
   "theorems": [
    "Horus.CargoEdit.features_exact",
    "Horus.CargoEdit.others_kept",
    "Horus.CargoEdit.features_again",
    "Horus.CargoEdit.crates_kept",
    "Horus.CargoEdit.crates_exact",
    "Horus.CargoEdit.told_but_not_added",
    "Horus.CargoEdit.horus_passed_over",
    "Horus.CargoEdit.twice_written",
    "Horus.CargoEdit.nameless_entry"
   ],
   "note": "what is written is exact; success is reported where nothing was written, and a nameless mention breaks the file"
  },
  {
   "property": "C253",
   "status": "partial",
   "theorems": [
    "Horus.PyValues.send_exact",
    "Horus.PyValues.received_settled",
    "Horus.PyValues.received_same_partial",
    "Horus.PyValues.deep_lost",
    "Horus.PyValues.nesting_lost",
    "Horus.PyValues.none_looks_empty",
    "Horus.PyValues.some_looks_some",
    "Horus.PyValues.told_apart",
    "Horus.PyValues.node_send",
    "Horus.PyValues.node_send_inner"
   ],
   "note": "proved for all values nested no deeper than the reader's limit; deeper ones are taken by the sender and raise at the receiver, and a message of None or NaN looks like no message"
  },
  {
   "property": "C254",
   "status": "partial",
   "theorems": [
    "Horus.Handles.no_use_after_free_partial",
    "Horus.Handles.freed_once_partial",
    "Horus.Handles.held_or_freed_partial",
    "Horus.Handles.nothing_left_partial",
    "Horus.Handles.cancel_after_move",
    "Horus.Handles.moved_goal_cancels_zero",
    "Horus.Handles.failed_goal_cancels_zero",
    "Horus.Handles.cancel_dangles",
    "Horus.Handles.copied_builder_twice",
    "Horus.Handles.dropped_builder_leaks",
    "Horus.Handles.build_after_move"
   ],
   "note": "proved for programs that cancel goals only while their client exists, build nodes only while the scheduler object exists and do not copy a builder; the code does not prevent these, and a builder that is dropped is leaked"
  },
  {
   "property": "C255",
   "status": "partial",
   "theorems": [
    "Horus.Lambda.send_exact",
    "Horus.Lambda.recv_exact",
    "Horus.Lambda.consistent_safe_partial",
    "Horus.Lambda.names_listed",
    "Horus.Lambda.wrong_type_confused",
    "Horus.Lambda.node_all",
    "Horus.Lambda.lambda_ticks",
    "Horus.Lambda.lambda_never_safe",
    "Horus.Lambda.lambda_init_early"
   ],
   "note": "holds when every call names the type of the declaration; the code does not check it"
  },
  {
   "property": "C256",
   "status": "partial",
   "theorems": [
    "Horus.PyPi.detect_exact",
    "Horus.PyPi.others_ignored",
    "Horus.PyPi.own_version_partial",
    "Horus.PyPi.alone_partial",
    "Horus.PyPi.dependency_version",
    "Horus.PyPi.entries_kept",
    "Horus.PyPi.unpinned",
    "Horus.PyPi.pinned",
    "Horus.PyPi.reported_pinned",
    "Horus.PyPi.added_once_partial",
    "Horus.PyPi.dotted_added_again",
    "Horus.PyPi.old_pin_stays",
    "Horus.PyPi.operator_pinned",
    "Horus.PyPi.other_replaced"
   ],
   "note": "the recorded version is right when no other distribution's name begins with the package's name, and entries are not duplicated when the name has no dot; both conditions are needed"
  },
  {
   "property": "C257",
   "status": "partial",
   "theorems": [
    "Horus.Update.scan_exact",
    "Horus.Update.dry_nothing",
    "Horus.Update.current_nothing",
    "Horus.Update.global_update_partial",
    "Horus.Update.cached_package_updated",
    "Horus.Update.workspace_package_lost",
    "Horus.Update.source_ignored"
   ],
   "note": "proved for cached packages; a package that is only in the workspace is lost"
  },
  {
   "property": "C258",
   "status": "partial",
   "theorems": [
    "Horus.DepInstall.installs_everything",
    "Horus.DepInstall.only_asked",
    "Horus.DepInstall.keeps",
    "Horus.DepInstall.ends",
    "Horus.DepInstall.pick_meets",
    "Horus.DepInstall.present_counts",
    "Horus.DepInstall.bound_broken",
    "Horus.DepInstall.half_installed_stays",
    "Horus.DepInstall.unreachable_unbounded",
    "Horus.DepInstall.pinned_resolver"
   ],
   "note": "presence, minimality and termination are proved; that the versions are those the resolver chose is false"
  },
  {
   "property": "C259",
   "status": "partial",
   "theorems": [
    "Horus.NodeList.listed_exact_partial",
    "Horus.NodeList.slow_clock_hidden",
    "Horus.NodeList.fast_clock_running",
    "Horus.NodeList.forged_node",
    "Horus.NodeList.merge_names",
    "Horus.NodeList.merge_exact_partial",
    "Horus.NodeList.same_name_mixed",
    "Horus.NodeList.labelled_iff",
    "Horus.NodeList.own_label",
    "Horus.NodeList.remote_labelled"
   ],
   "note": "exact for names without quotes, and for local nodes with distinct names; both conditions are needed"
  },
  {
   "property": "C260",
   "status": "proved",
   "theorems": [
    "Horus.PluginBin.registered_inside",
    "Horus.PluginBin.escape_refused",
    "Horus.PluginBin.link_refused",
    "Horus.PluginBin.own_accepted",
    "Horus.PluginBin.solid_real",
    "Horus.PluginBin.walk_prefix",
    "Horus.PluginBin.detect_below",
    "Horus.PluginBin.directory_hides",
    "Horus.PluginBin.found_executable"
   ],
   "note": ""
  },
  {
   "property": "C261",
   "status": "partial",
   "theorems": [
    "Horus.Uninstall.install_uninstall",
    "Horus.Uninstall.files_gone_partial",
    "Horus.Uninstall.only_own_command",
    "Horus.Uninstall.refusal_unregisters",
    "Horus.Uninstall.missing_unregisters",
    "Horus.Uninstall.other_name_stays",
    "Horus.Uninstall.wrong_package_hit",
    "Horus.Uninstall.disabled_stays",
    "Horus.Uninstall.second_version_stays",
    "Horus.Uninstall.project_edited",
    "Horus.Uninstall.takeover",
    "Horus.Uninstall.failed_link_drops",
    "Horus.Uninstall.install_exact"
   ],
   "note": "the round trip holds under the naming convention; refusal, other names, several versions and the project's files are counterexamples"
  },
  {
   "property": "C262",
   "status": "partial",
   "theorems": [
    "Horus.AddDep.upsert_exact",
    "Horus.AddDep.add_exact",
    "Horus.AddDep.add_path_exact",
    "Horus.AddDep.add_git_exact",
    "Horus.AddDep.remove_exact_partial",
    "Horus.AddDep.add_remove",
    "Horus.AddDep.inline_add_refused",
    "Horus.AddDep.split_version",
    "Horus.AddDep.split_plain",
    "Horus.AddDep.inline_remove_nothing",
    "Horus.AddDep.hardware_stays",
    "Horus.AddDep.url_is_path",
    "Horus.AddDep.git_needs_flag",
    "Horus.AddDep.scoped_is_empty",
    "Horus.AddDep.scoped_written",
    "Horus.AddDep.failed_install_written",
    "Horus.AddDep.update_drops",
    "Horus.AddDep.both_sections"
   ],
   "note": "adding is exact whenever it writes; removing is exact for sections written as tables; a failed installation and inline sections are counterexamples"
  },
  {
   "property": "C263",
   "status": "partial",
   "theorems": [
    "Horus.FanoutSpill.received_partial",
    "Horus.FanoutSpill.all_offered",
    "Horus.FanoutSpill.recent_readable",
    "Horus.FanoutSpill.in_use_iff",
    "Horus.FanoutSpill.window_bound",
    "Horus.FanoutSpill.nothing_leaks",
    "Horus.FanoutSpill.full_pool_stuck",
    "Horus.FanoutSpill.full_pool_refuses",
    "Horus.FanoutSpill.full_pool_reached",
    "Horus.FanoutSpill.oldest_lost",
    "Horus.FanoutSpill.drop_loses_large",
    "Horus.FanoutSpill.lookalike"
   ],
   "note": "reception, storage and accounting are proved; messages that look like a descriptor, the oldest message of a ring and pools filled by keep-alives are counterexamples; subscribers are fixed and processes do not crash"
  },
  {
   "property": "C264",
   "status": "partial",
   "theorems": [
    "Horus.NetConf.operator_wins",
    "Horus.NetConf.absent_changes_nothing",
    "Horus.NetConf.applied_partial",
    "Horus.NetConf.auto_iff",
    "Horus.NetConf.enabled_iff",
    "Horus.NetConf.peers_only",
    "Horus.NetConf.one_target_ignores",
    "Horus.NetConf.one_target_witness",
    "Horus.NetConf.import_surprises",
    "Horus.NetConf.comma_splits",
    "Horus.NetConf.misspelt_warns"
   ],
   "note": "proved for runs of several files and lists of plain patterns; every other kind of run ignores the section, and some restrictions are read as none (counterexamples); ASCII blanks and case only"
  },
  {
   "property": "C265",
   "status": "partial",
   "theorems": [
    "Horus.TopicList.listed_exact",
    "Horus.TopicList.users_exact",
    "Horus.TopicList.type_first",
    "Horus.TopicList.first_decides",
    "Horus.TopicList.deleted_only",
    "Horus.TopicList.status_exact",
    "Horus.TopicList.rate_exact",
    "Horus.TopicList.order_decides",
    "Horus.TopicList.used_shown_stale",
    "Horus.TopicList.node_names_unchecked",
    "Horus.TopicList.together_partial",
    "Horus.TopicList.together_without_list",
    "Horus.TopicList.kills_iff",
    "Horus.TopicList.list_splits",
    "Horus.TopicList.orphan_close_removes",
    "Horus.TopicList.sweep_hides",
    "Horus.TopicList.sweep_keeps",
    "Horus.TopicList.shared_description",
    "Horus.TopicList.description_left"
   ],
   "note": "the contents of the list are proved in full; that users stay together is proved for histories in which no listing deletes a topic that is open (in particular without listing), and refuted otherwise; process identifiers are never used again"
  },
  {
   "property": "C266",
   "status": "partial",
   "theorems": [
    "Horus.Members.members_exact",
    "Horus.Members.bad_exclusion_ignored",
    "Horus.Members.rel_leads",
    "Horus.Members.crates_kept_partial",
    "Horus.Members.git_kept_partial",
    "Horus.Members.path_kept_partial",
    "Horus.Members.inherit_exact_partial",
    "Horus.Members.other_languages_out",
    "Horus.Members.registry_from_crates_io",
    "Horus.Members.shared_serde_refused",
    "Horus.Members.shared_optional_refused",
    "Horus.Members.member_horus_refused",
    "Horus.Members.scoped_refused",
    "Horus.Members.inherited_missing",
    "Horus.Members.marks_dropped",
    "Horus.Members.net_ignored",
    "Horus.Members.own_directory_partial",
    "Horus.Members.member_replaced",
    "Horus.Members.root_package_left_out",
    "Horus.Members.run_member",
    "Horus.Members.failed_runs_nothing",
    "Horus.Members.plain_run_runs_nothing",
    "Horus.Members.library_run",
    "Horus.Members.targets_exact"
   ],
   "note": "membership, paths and inheritance of crates.io dependencies are proved; registry dependencies of members, optional marks, features of path dependencies, shared `serde`, scoped names and the root package are refuted; cargo itself is represented by what it reads from the tables"
  },
  {
   "property": "C267",
   "status": "partial",
   "theorems": [
    "Horus.Inject.injected_exact",
    "Horus.Inject.refused_iff",
    "Horus.Inject.scheduler_node_never",
    "Horus.Inject.single_run",
    "Horus.Inject.single_stops",
    "Horus.Inject.never_finishes",
    "Horus.Inject.loop_repeats",
    "Horus.Inject.loop_not_stopped",
    "Horus.Inject.sigterm_restarts",
    "Horus.Inject.later_ctrlC",
    "Horus.Inject.first_ctrlC",
    "Horus.Inject.loop_hides_error",
    "Horus.Inject.empty_round_stays"
   ],
   "note": "the choice of nodes and the single run are proved; stopping a loop, ending with the recording and reporting errors in a loop are refuted"
  },
  {
   "property": "C268",
   "status": "partial",
   "theorems": [
    "Horus.Proxy.root_nearest",
    "Horus.Proxy.deep_unseen",
    "Horus.Proxy.tool_first",
    "Horus.Proxy.copy_is_tool",
    "Horus.Proxy.cargo_args_kept",
    "Horus.Proxy.cargo_on_project",
    "Horus.Proxy.cargo_own_manifest",
    "Horus.Proxy.leading_word_loses",
    "Horus.Proxy.program_argument_loses",
    "Horus.Proxy.other_commands_get_it",
    "Horus.Proxy.cmake_words",
    "Horus.Proxy.cmake_added",
    "Horus.Proxy.cmake_mode_kept",
    "Horus.Proxy.cmake_default_build",
    "Horus.Proxy.joined_build_overridden",
    "Horus.Proxy.dot_after_option",
    "Horus.Proxy.script_after_definition"
   ],
   "note": "arguments are kept and the plain uses reach the project; toolchains and options before the command, program arguments, `-Bdir`, `.` behind an option and scripts with definitions are refuted"
  },
  {
   "property": "C269",
   "status": "partial",
   "theorems": [
    "Horus.LockCheck.same_major_minor",
    "Horus.LockCheck.minor_pin",
    "Horus.LockCheck.major_pin_rejects",
    "Horus.LockCheck.compatible_refl",
    "Horus.LockCheck.compatible_symm",
    "Horus.LockCheck.compatible_trans",
    "Horus.LockCheck.warned_iff",
    "Horus.LockCheck.absent_tool_silent",
    "Horus.LockCheck.cmake_unchecked",
    "Horus.LockCheck.missing_exact",
    "Horus.LockCheck.nameless_always_missing",
    "Horus.LockCheck.library_version_unchecked",
    "Horus.LockCheck.silent_iff",
    "Horus.LockCheck.report_complete",
    "Horus.LockCheck.advice_present",
    "Horus.LockCheck.advice_elsewhere",
    "Horus.LockCheck.apt_advised_without_apt",
    "Horus.LockCheck.check_ok_iff",
    "Horus.LockCheck.errors_never_set",
    "Horus.LockCheck.lock_then_check",
    "Horus.LockCheck.upgrade_reported",
    "Horus.LockCheck.lock_keeps",
    "Horus.LockCheck.lock_adds_no_system",
    "Horus.LockCheck.broken_lock_replaced",
    "Horus.LockCheck.build_prints_check"
   ],
   "note": "reports are exact for what is looked at; --check failing on missing libraries, absent tools, CMake, library versions and unreadable files are refuted"
  },
  {
   "property": "C270",
   "status": "partial",
   "theorems": [
    "Horus.SysDeps.packages_exact",
    "Horus.SysDeps.groups_exact",
    "Horus.SysDeps.devices_exact",
    "Horus.SysDeps.libs_exact",
    "Horus.SysDeps.unknown_ignored",
    "Horus.SysDeps.silent_iff",
    "Horus.SysDeps.quick_both",
    "Horus.SysDeps.quick_empty",
    "Horus.SysDeps.opencv_never_clean",
    "Horus.SysDeps.no_dpkg_all_missing",
    "Horus.SysDeps.links_exact",
    "Horus.SysDeps.commands_exact"
   ],
   "note": "exact for any table; OpenCV's alternative names, the empty quick fix and machines without dpkg are refuted"
  },
  {
   "property": "C271",
   "status": "partial",
   "theorems": [
    "Horus.SelfUpdate.check_inert",
    "Horus.SelfUpdate.cargo_iff",
    "Horus.SelfUpdate.current_left_alone",
    "Horus.SelfUpdate.wrong_package_claimed",
    "Horus.SelfUpdate.nowhere_fails",
    "Horus.SelfUpdate.plugin_iff",
    "Horus.SelfUpdate.collect_mem",
    "Horus.SelfUpdate.collect_nodup",
    "Horus.SelfUpdate.no_directory_no_update",
    "Horus.SelfUpdate.shadowed_not_updated",
    "Horus.SelfUpdate.upgraded_means_installed",
    "Horus.SelfUpdate.older_offered"
   ],
   "note": "`--check` is inert and plugins are handled exactly once the phase runs; that horus itself is updated, that newer means newer, and that the plugin phase runs are refuted"
  },
  {
   "property": "C272",
   "status": "partial",
   "theorems": [
    "Horus.Attribute.logged_inside",
    "Horus.Attribute.logged_outside",
    "Horus.Attribute.logged_as",
    "Horus.Attribute.name_inside",
    "Horus.Attribute.name_outside",
    "Horus.Attribute.tick_left_behind",
    "Horus.Attribute.situations",
    "Horus.Attribute.lines_kept",
    "Horus.Attribute.console_shown",
    "Horus.Attribute.tags_differ",
    "Horus.Attribute.forwarded_iff",
    "Horus.Attribute.forwarded_mono",
    "Horus.Attribute.errors_forwarded",
    "Horus.Attribute.trace_is_debug",
    "Horus.Attribute.off_is_warn"
   ],
   "note": "names, ticks and times inside calls are exact; the tick number outside calls and the settings `trace` and `off` are refuted"
  },
  {
   "property": "C273",
   "status": "partial",
   "theorems": [
    "Horus.Owner.named_used",
    "Horus.Owner.owner_born",
    "Horus.Owner.made_inside_named",
    "Horus.Owner.first_use_named",
    "Horus.Owner.first_recv_named",
    "Horus.Owner.named_stays",
    "Horus.Owner.one_entry",
    "Horus.Owner.version_watches",
    "Horus.Owner.publishers_named",
    "Horus.Owner.subscribers_named",
    "Horus.Owner.quiet_event",
    "Horus.Owner.other_methods_unseen",
    "Horus.Owner.pool_constructor_unseen",
    "Horus.Owner.exhausted_unseen",
    "Horus.Owner.outside_uses_exhaust",
    "Horus.Owner.unknown_unseen",
    "Horus.Owner.clone_unseen",
    "Horus.Owner.given_away_misnamed",
    "Horus.Owner.dropped_stays"
   ],
   "note": "who is listed really used the topic; that every user is listed, and that a node is taken off when its handle goes, are refuted"
  },
  {
   "property": "C274",
   "status": "partial",
   "theorems": [
    "Horus.Switch.one_at_a_time",
    "Horus.Switch.success_in_force",
    "Horus.Switch.epochs_in_order",
    "Horus.Switch.mode_follows_epoch",
    "Horus.Switch.calm_writes",
    "Horus.Switch.calm_rest",
    "Horus.Switch.only_to_best",
    "Horus.Switch.best_stays",
    "Horus.Switch.alone_succeeds",
    "Horus.Switch.dead_holder_blocks",
    "Horus.Switch.stale_target_wins",
    "Horus.Switch.death_between",
    "Horus.Switch.broken_lock_overlaps"
   ],
   "note": "exclusion, numbering and publication hold for every interleaving without broken locks (numbering and publication for all); that the topic ends on the backend its participants call for, that a death leaves it repairable and that a broken lock belongs to a dead thread are refuted"
  },
  {
   "property": "C275",
   "status": "partial",
   "theorems": [
    "Horus.Follow.epoch_tells_mode",
    "Horus.Follow.empty_current",
    "Horus.Follow.first_message_current",
    "Horus.Follow.four_messages_current",
    "Horus.Follow.told_one_message",
    "Horus.Follow.own_process_follows",
    "Horus.Follow.current_run",
    "Horus.Follow.count_run",
    "Horus.Follow.three_behind",
    "Horus.Follow.stranded"
   ],
   "note": "proved for every history without a death between the two writes of a change; with one, handles are stranded for good"
  },
  {
   "property": "C276",
   "status": "partial",
   "theorems": [
    "Horus.Join.registered_holds",
    "Horus.Join.slots_distinct",
    "Horus.Join.one_slot_each",
    "Horus.Join.counters_exact",
    "Horus.Join.counters_never_ahead",
    "Horus.Join.refused_means_full",
    "Horus.Join.wait_free",
    "Horus.Join.short_is_quiet",
    "Horus.Join.orphan_forever",
    "Horus.Join.refreshed_yet_taken",
    "Horus.Join.counter_stays_high"
   ],
   "note": "Partial: true only without deaths in mid-registration and without leases that run out; orphan_forever, refreshed_yet_taken and counter_stays_high show what happens otherwise."
  },
  {
   "property": "C277",
   "status": "partial",
   "theorems": [
    "Horus.Single.send_iff",
    "Horus.Single.one_in_order",
    "Horus.Single.one_delivers",
    "Horus.Single.one_stuck",
    "Horus.Single.one_wedged",
    "Horus.Single.many_claims",
    "Horus.Single.many_exact_partial",
    "Horus.Single.many_goes_on",
    "Horus.Single.slow_claimant_gets_later"
   ],
   "note": "partial: with one subscriber a message that cannot be decoded stops the stream for good and then the publisher (one_stuck, one_wedged); a slow claimant gets a later message (slow_claimant_gets_later)"
  },
  {
   "property": "C278",
   "status": "partial",
   "theorems": [
    "Horus.New.lang_exact",
    "Horus.New.taken_name",
    "Horus.New.checks_iff",
    "Horus.New.taken_but_refused",
    "Horus.New.long_name_panics",
    "Horus.New.succeeds",
    "Horus.New.fresh_clear",
    "Horus.New.all_written",
    "Horus.New.manifest_and_entry",
    "Horus.New.workspace_manifests",
    "Horus.New.outside_untouched",
    "Horus.New.other_files_kept",
    "Horus.New.overwrites",
    "Horus.New.lib_flag",
    "Horus.New.half_made"
   ],
   "note": "partial: an existing project is overwritten (overwrites); names with capitals, of one letter or reserved make projects that `horus check` refuses (checks_iff says exactly which)"
  },
  {
   "property": "C279",
   "status": "partial",
   "theorems": [
    "Horus.ClientLocks.some_thread_goes_on",
    "Horus.ClientLocks.every_call_returns",
    "Horus.ClientLocks.feedback_callback_sends_hangs",
    "Horus.ClientLocks.callback_waits_hangs",
    "Horus.ClientLocks.feedback_callback_lists_hangs",
    "Horus.ClientLocks.waiting_callback_sends_hangs",
    "Horus.ClientLocks.waiting_callback_looks_hangs"
   ],
   "note": "partial: the documentation puts no limit on what callbacks may call, and the five `\u2026_hangs` theorems show calls that hang"
  },
  {
   "property": "C280",
   "status": "partial",
   "theorems": [
    "Horus.ParamLocks.some_thread_goes_on",
    "Horus.ParamLocks.every_call_returns",
    "Horus.ParamLocks.callback_registers_hangs",
    "Horus.ParamLocks.callback_sets_hangs"
   ],
   "note": "partial: the documentation does not forbid callbacks to set parameters or to register callbacks, and both can hang"
  },
  {
   "property": "C281",
   "status": "proved",
   "theorems": [
    "Horus.SafetyLocks.some_thread_goes_on",
    "Horus.SafetyLocks.every_call_returns",
    "Horus.SafetyLocks.monitor_hooks_allowed",
    "Horus.SafetyLocks.stop_holds_one_lock",
    "Horus.SafetyLocks.hook_replaces_itself_hangs",
    "Horus.SafetyLocks.hooks_in_circle_hang"
   ],
   "note": "for the hooks the monitor installs and all that take no hook lock; hooks a user installs that replace themselves or call each other can hang"
  },
  {
   "property": "C282",
   "status": "partial",
   "theorems": [
    "Horus.PyGil.some_thread_goes_on",
    "Horus.PyGil.every_call_returns",
    "Horus.PyGil.waits_for_gil_with_nothing",
    "Horus.PyGil.finalizer_in_listing_hangs",
    "Horus.PyGil.finalizer_in_register_hangs"
   ],
   "note": "partial: as long as no finalizer written in Python runs while a binding holds one of its locks; where one does, threads can hang"
  },
  {
   "property": "C283",
   "status": "partial",
   "theorems": [
    "Horus.Pkg.PluginList.resolve_iff",
    "Horus.Pkg.PluginList.listed_iff",
    "Horus.Pkg.PluginList.listed_once",
    "Horus.Pkg.PluginList.found_listed",
    "Horus.Pkg.PluginList.listed_found_partial",
    "Horus.Pkg.PluginList.listed_not_found",
    "Horus.Pkg.PluginList.line_iff",
    "Horus.Pkg.PluginList.line_is_found_partial",
    "Horus.Pkg.PluginList.json_same",
    "Horus.Pkg.PluginList.verify_iff",
    "Horus.Pkg.PluginList.unknown_verified",
    "Horus.Pkg.PluginList.search_mem",
    "Horus.Pkg.PluginList.search_unknown"
   ],
   "note": "partial: a project that does not inherit still lists the global plugins; verifying an unknown plugin succeeds; an unknown category is ignored"
  },
  {
   "property": "C284",
   "status": "partial",
   "theorems": [
    "Horus.CleanRun.removed_exact",
    "Horus.CleanRun.json_same",
    "Horus.CleanRun.dry_harmless",
    "Horus.CleanRun.dry_honest",
    "Horus.CleanRun.stuck_stops",
    "Horus.CleanRun.json_lists_partial",
    "Horus.CleanRun.locked_listed",
    "Horus.CleanRun.bytecode_unlisted",
    "Horus.CleanRun.live_listed",
    "Horus.CleanRun.json_alone_iff",
    "Horus.CleanRun.json_dry_alone"
   ],
   "note": "partial: the document of --json is neither the list of what is removed nor alone on the standard output"
  },
  {
   "property": "C285",
   "status": "partial",
   "theorems": [
    "Horus.Calib.near_partial",
    "Horus.Calib.centroid_placed",
    "Horus.Calib.answered_iff",
    "Horus.Calib.right_places_all",
    "Horus.Calib.unturned_exact",
    "Horus.Calib.flat_turn_lost",
    "Horus.Calib.half_turn_lost",
    "Horus.Calib.floor_turn_lost"
   ],
   "note": "partial: the guarantee needs points in no plane and a rotation that is no half turn. For points at one height turned about the vertical the answer is always no rotation, whatever the angle, and for half turns the answer is always at right angles to the true quaternion. Floating point is not modelled."
  },
  {
   "property": "C286",
   "status": "partial",
   "theorems": [
    "Horus.HandEye.found_partial",
    "Horus.HandEye.solve_exact",
    "Horus.HandEye.solve_singular",
    "Horus.HandEye.answered_iff",
    "Horus.HandEye.half_turn_never",
    "Horus.HandEye.one_axis_silent",
    "Horus.HandEye.half_axis_mirrored",
    "Horus.HandEye.hand_found"
   ],
   "note": "partial: the exact answer needs a mount that is no half turn, motions neither tiny nor close to half turns, and determinants not taken for zero. Motions about one axis are answered with no rotation and no translation instead of an error; a half turn is never the answer; the axis of a half-turn motion can be mirrored. Floating point is not modelled."
  },
  {
   "property": "C287",
   "status": "partial",
   "theorems": [
    "Horus.DepSpec.plain_read",
    "Horus.DepSpec.all_read_partial",
    "Horus.DepSpec.scoped_forgotten",
    "Horus.DepSpec.forgotten_silent",
    "Horus.DepSpec.unread_forgotten",
    "Horus.DepSpec.py_any",
    "Horus.DepSpec.pip_read",
    "Horus.DepSpec.cargo_read",
    "Horus.DepSpec.features_dropped",
    "Horus.DepSpec.old_brings_all",
    "Horus.DepSpec.latest_any"
   ],
   "note": "partial: proved for names without a scope whose requirement can be read; scoped names and unreadable requirements make the dependency disappear without a word, and the metadata endpoint brings in dependencies for development"
  },
  {
   "property": "C288",
   "status": "partial",
   "theorems": [
    "Horus.PyReq.kept_partial",
    "Horus.PyReq.any_kept",
    "Horus.PyReq.exact_kept",
    "Horus.PyReq.wild_kept",
    "Horus.PyReq.refused_iff",
    "Horus.PyReq.usual_refused",
    "Horus.PyReq.short_exact_none",
    "Horus.PyReq.short_bounds"
   ],
   "note": "partial: proved for lower and upper bounds, full exact versions, wildcards and any version; every requirement with a caret or a tilde is refused by pip, and comparators with fewer numbers mean something else. The semver crate and pip are modelled from their documentation."
  },
  {
   "property": "C289",
   "status": "partial",
   "theorems": [
    "Horus.MsgScan.found_partial",
    "Horus.MsgScan.hash_same",
    "Horus.MsgScan.hash_right_partial",
    "Horus.MsgScan.spaced_name",
    "Horus.MsgScan.inner_braces",
    "Horus.MsgScan.macro_unseen",
    "Horus.MsgScan.hidden_lost",
    "Horus.MsgScan.fn_field_lost",
    "Horus.MsgScan.fn_changes_hash",
    "Horus.MsgScan.one_line_swallows",
    "Horus.MsgScan.brace_in_comment",
    "Horus.MsgScan.unit_misnamed"
   ],
   "note": "partial: proved for files written in the usual way (one line to a field, types spelt as rustc prints them, no braces in comments); four ways of writing a struct are misread. Names and white space are ASCII; the search for the directories, module names and documentation are not modelled."
  },
  {
   "property": "C290",
   "status": "partial",
   "theorems": [
    "Horus.ManPlace.place",
    "Horus.ManPlace.place_distinct",
    "Horus.ManPlace.past_end",
    "Horus.ManPlace.column_iff",
    "Horus.ManPlace.header_table",
    "Horus.ManPlace.header_array",
    "Horus.ManPlace.header_none",
    "Horus.ManPlace.header_quoted",
    "Horus.ManPlace.found_iff",
    "Horus.ManPlace.inner_wins",
    "Horus.ManPlace.deep_lost"
   ],
   "note": "partial: lines are always right; columns count bytes, and are right as columns of characters exactly when only ASCII stands before the place on its line; the manifest is looked for only nine directories up. The toml crate, which finds the error, is not modelled; that an offset lies between characters is assumed of it."
  },
  {
   "property": "C291",
   "status": "partial",
   "theorems": [
    "Horus.Langs.detect_iff",
    "Horus.Langs.detect_nodup",
    "Horus.Langs.tools_agree_iff",
    "Horus.Langs.run_detected",
    "Horus.Langs.main_kept",
    "Horus.Langs.deploy_iff",
    "Horus.Langs.deploy_partial",
    "Horus.Langs.rust_deployed",
    "Horus.Langs.script_wins",
    "Horus.Langs.python_as_rust",
    "Horus.Langs.directory_counts",
    "Horus.Langs.nested_unseen",
    "Horus.Langs.hidden_none",
    "Horus.Langs.ending"
   ],
   "note": "partial: the language run is always among those seen, and deploy takes the same one exactly when nothing of a language earlier in the order Rust, Python, C++ is there. The file system is given by the names in three directories; `horus run` is taken without a file argument and in the project's directory."
  },
  {
   "property": "C292",
   "status": "partial",
   "theorems": [
    "Horus.FmtLint.green_iff",
    "Horus.FmtLint.checked_partial",
    "Horus.FmtLint.missing_green",
    "Horus.FmtLint.ros_green",
    "Horus.FmtLint.files_iff",
    "Horus.FmtLint.deep_file",
    "Horus.FmtLint.check_only",
    "Horus.FmtLint.cpp_given",
    "Horus.FmtLint.clippy_extra"
   ],
   "note": "partial: proved for the tools that are run; a language whose tool is not installed is passed over and the command still ends well. How the tools end is a parameter; threads of the runner that panic and links between directories are left out."
  },
  {
   "property": "C293",
   "status": "partial",
   "theorems": [
    "Horus.BbView.accepts_iff",
    "Horus.BbView.view_all",
    "Horus.BbView.view_last",
    "Horus.BbView.range_iff",
    "Horus.BbView.record_steps",
    "Horus.BbView.follow_exact",
    "Horus.BbView.whole_reads",
    "Horus.BbView.follow_asked_partial",
    "Horus.BbView.clear_iff",
    "Horus.BbView.stop_hidden",
    "Horus.BbView.failed_tick_quiet",
    "Horus.BbView.backwards_range",
    "Horus.BbView.torn_read",
    "Horus.BbView.tick_ignored",
    "Horus.BbView.clear_blinds"
   ],
   "note": "partial: the filters and the follower between write calls are proved in full; a follower whose read falls inside one write loses the record (torn_read), `--tick` is ignored with `--follow` (follow_asked_partial is for no `--tick`), and `--clear` blinds a running recorder (clear_blinds). Lower-casing and number parsing are parameters; details, colours and the search for the directory are left out."
  },
  {
   "property": "C294",
   "status": "partial",
   "theorems": [
    "Horus.LaunchReg.status_exact_partial",
    "Horus.LaunchReg.stop_reaches_partial",
    "Horus.LaunchReg.stop_after_status",
    "Horus.LaunchReg.status_sound",
    "Horus.LaunchReg.discover_iff",
    "Horus.LaunchReg.discover_topic",
    "Horus.LaunchReg.discover_nodes",
    "Horus.LaunchReg.stop_dead",
    "Horus.LaunchReg.killed_unknown",
    "Horus.LaunchReg.same_name",
    "Horus.LaunchReg.number_reused",
    "Horus.LaunchReg.foreign_scheduler",
    "Horus.LaunchReg.restart_stale"
   ],
   "note": "partial: status_exact_partial and stop_reaches_partial suppose that no two running launches share a session name and that process numbers are not given out again; stop_dead, same_name, number_reused and foreign_scheduler show what happens otherwise. Writing or removing a file is one step; delivery of the stop command is left out."
  },
  {
   "property": "C295",
   "status": "partial",
   "theorems": [
    "Horus.CheckPy.imports_iff",
    "Horus.CheckPy.import_first",
    "Horus.CheckPy.from_first",
    "Horus.CheckPy.missing_partial",
    "Horus.CheckPy.rest_unseen",
    "Horus.CheckPy.library_missing",
    "Horus.CheckPy.program_counts",
    "Horus.CheckPy.prose_missing"
   ],
   "note": "partial: missing_partial supposes that every import statement names one module and takes the standard library to be the modules the check lists; rest_unseen and library_missing show what happens otherwise. White space and letters are ASCII; pip and cargo's directory are parameters."
  },
  {
   "property": "C296",
   "status": "partial",
   "theorems": [
    "Horus.Precompile.own_kept",
    "Horus.Precompile.own_forever",
    "Horus.Precompile.clean_partial",
    "Horus.Precompile.build_sees",
    "Horus.Precompile.never_own",
    "Horus.Precompile.others_kept",
    "Horus.Precompile.killed_stays",
    "Horus.Precompile.half_written",
    "Horus.Precompile.no_file",
    "Horus.Precompile.builds_once",
    "Horus.Precompile.cache_version",
    "Horus.Precompile.horus_alone",
    "Horus.Precompile.empty_removed",
    "Horus.Precompile.programs_iff"
   ],
   "note": "partial: clean_partial supposes that no run is killed or fails to write and that the package has no empty .cargo directory; killed_stays, half_written and empty_removed show what happens otherwise. What cargo does, and a failure to remove the file, are left out."
  },
  {
   "property": "C297",
   "status": "partial",
   "theorems": [
    "Horus.PkgSource.detect_partial",
    "Horus.PkgSource.found_there",
    "Horus.PkgSource.encode_whole",
    "Horus.PkgSource.encode_apart",
    "Horus.PkgSource.outage_shadow",
    "Horus.PkgSource.unasked",
    "Horus.PkgSource.any_key",
    "Horus.PkgSource.prefix_taken",
    "Horus.PkgSource.fragment_found"
   ],
   "note": "partial: detect_partial supposes that all servers answer truly; outage_shadow and unasked show what happens otherwise. Servers are functions of the path asked for."
  },
  {
   "property": "C298",
   "status": "partial",
   "theorems": [
    "Horus.CppBinary.last_run_partial",
    "Horus.CppBinary.last_run_multi_partial",
    "Horus.CppBinary.find_sound",
    "Horus.CppBinary.internal_iff",
    "Horus.CppBinary.target_plain",
    "Horus.CppBinary.stale_debug",
    "Horus.CppBinary.directory_run",
    "Horus.CppBinary.other_started",
    "Horus.CppBinary.names_meet"
   ],
   "note": "partial: last_run_partial is for generators with one configuration, last_run_multi_partial supposes that nothing else has the target's name; stale_debug, directory_run and other_started show what happens otherwise. Where cmake writes the program is an assumption of the model."
  },
  {
   "property": "C299",
   "status": "partial",
   "theorems": [
    "Horus.AptDeps.missing_iff",
    "Horus.AptDeps.sudo_iff",
    "Horus.AptDeps.silent_none",
    "Horus.AptDeps.installed_kept",
    "Horus.AptDeps.table_skipped",
    "Horus.AptDeps.removed_counts"
   ],
   "note": "partial: consent is proved in full; the packages are those of the dependencies looked at, and table_skipped and removed_counts show needed ones that are left out. Letters are ASCII; the behaviour of dpkg is assumed."
  },
  {
   "property": "C300",
   "status": "partial",
   "theorems": [
    "Horus.CompileCommands.last_link",
    "Horus.CompileCommands.after_cases",
    "Horus.CompileCommands.dir_kept",
    "Horus.CompileCommands.own_kept_partial",
    "Horus.CompileCommands.own_lost",
    "Horus.CompileCommands.link_lost"
   ],
   "note": "partial: own_kept_partial supposes that no build writes compile commands; own_lost shows that otherwise the project's own file is lost. The second half fails in the code."
  },
  {
   "property": "C301",
   "status": "partial",
   "theorems": [
    "Horus.TestCmd.green_iff",
    "Horus.TestCmd.sim_partial",
    "Horus.TestCmd.rust_jobs",
    "Horus.TestCmd.first_failure",
    "Horus.TestCmd.cpp_real",
    "Horus.TestCmd.threads_ignored",
    "Horus.TestCmd.nothing_green"
   ],
   "note": "partial: sim_partial leaves out ctest, and cpp_real shows that C++ tests run with real drivers; nothing_green shows a success without a test run. Detection of languages is in Verif/Build/Langs.lean; options that are only passed on are left out."
  }
 ]
}