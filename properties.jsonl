{"id": "C01", "title": "Data packets survive the wire", "statement": "Encoding any list of messages into one packet and decoding the bytes gives back the same packet header and exactly the same messages (topic hash, sequence, timestamps, priority, encoding, payload), in the same order, for both the single-message and the batch encoder; the encoder reports 0 and nothing is sent when the buffer is too small.", "quantifier": "every packet header without the heartbeat/ack flags, every list of messages (any number, any payload sizes that fit u32), every buffer size", "why_tests_cant": "Round trip ranges over all byte strings and all batch lengths; a test picks a few.", "anchors": ["horus_net/src/wire.rs: PacketHeader::encode/decode, MessageHeader::encode/decode, encode_single, encode_batch, decode_packet"]}
{"id": "C02", "title": "Decoding arbitrary network bytes is safe and accountable", "statement": "For any byte string received from the network decode_packet either refuses it or returns messages whose payloads are disjoint consecutive slices of that very datagram, so it never reads out of bounds, never invents bytes, and returns at most (len-12)/24 messages.", "quantifier": "every byte string of any length", "why_tests_cant": "The adversary picks the bytes; fuzzing samples them.", "anchors": ["horus_net/src/wire.rs: decode_packet, PacketHeader::decode, MessageHeader::decode"]}
{"id": "C03", "title": "Heartbeats, acks, data and announcements are never confused", "statement": "Heartbeat and ack packets round-trip their fields; a packet that decodes as a heartbeat never decodes as an ack or an announcement, carries no data messages, and no data packet produced by the encoders decodes as a discovery announcement (and vice versa).", "quantifier": "every payload value, every peer id/sequence, every byte string", "why_tests_cant": "Mutual exclusion of decoders over all byte strings is a universal statement.", "anchors": ["horus_net/src/wire.rs: encode_heartbeat, decode_heartbeat, encode_ack, decode_ack", "horus_net/src/discovery.rs: AnnouncementHeader::decode"]}
{"id": "C04", "title": "Discovery announcements survive the wire", "statement": "Encoding an announcement (peer id, ports, secret hash, topic list) and decoding it gives back the same peer and the first 200 topics with the same name, type hash, role, size and kind, provided names are at most 63 bytes; longer names are the documented exception.", "quantifier": "every peer identity, every list of topics", "why_tests_cant": "Ranges over all names and list lengths including the 63-byte and 200-topic boundaries.", "anchors": ["horus_net/src/discovery.rs: encode_announcement, decode_announcement, WireTopicEntry::encode/decode"]}
{"id": "C05", "title": "Fragmentation reassembles exactly", "statement": "Splitting a payload of at most 1 MiB into fragments and feeding them to a reassembler in any order, with any duplicates, interleaved with other messages' fragments, yields the original payload exactly once and nothing else; no fragment exceeds 1400 bytes.", "quantifier": "every payload, every permutation and duplication of its fragments", "why_tests_cant": "The number of arrival orders is factorial in the fragment count.", "anchors": ["horus_net/src/fragment.rs: Fragmenter::fragment, Reassembler::feed"]}
{"id": "C06", "title": "Reassembly memory is bounded under attack", "statement": "Whatever fragments arrive, the reassembler never holds more than 256 partial messages, each with at most 749 slots and at most 1 MiB of payload, and every returned payload is made only of bytes received.", "quantifier": "every sequence of fragment headers and payloads, every arrival time", "why_tests_cant": "Universally quantified over hostile packet histories.", "anchors": ["horus_net/src/fragment.rs: Reassembler::feed, gc_stale"]}
{"id": "C07", "title": "Large messages replicate end to end", "statement": "A message of any supported size published on one host is delivered byte-identical to the subscriber on a peer host that receives all its packets.", "quantifier": "every payload size up to 1 MiB, every content", "why_tests_cant": "The failing sizes are those above one fragment; the claim is about every size.", "anchors": ["horus_net/src/replicator.rs: handle_export, process_packet", "horus_net/src/wire.rs: encode_single, decode_packet", "horus_net/src/fragment.rs: Reassembler::feed"]}
{"id": "C08", "title": "Redundant copies are delivered at most once", "statement": "Across redundant copies, resends and reordering, each (topic, sequence) of an ordinary topic is accepted at most once, accepted sequence numbers are increasing per topic, and a first, in-order copy is never dropped.", "quantifier": "every arrival sequence of sequence numbers and topics", "why_tests_cant": "Histories are unbounded and reordering is adversarial; the failure cases are at the u32 wrap and the 4096-key table cap.", "anchors": ["horus_net/src/reliability.rs: is_new_message, dedup_messages"]}
{"id": "C09", "title": "Latched (reliable) sends stop on ack and are bounded", "statement": "A latched message is resent at most 100 times, never after it has been acknowledged, at least 10 ms apart, and is retained until acknowledged or exhausted.", "quantifier": "every sequence of latch, ack and timer events at any times", "why_tests_cant": "Unbounded event histories.", "anchors": ["horus_net/src/reliability.rs: start_latch, on_ack, tick_resends"]}
{"id": "C10", "title": "Streaming MAC equals the standard one-shot MAC", "statement": "Feeding a message to the hash in any number of pieces of any sizes gives the same digest as hashing it at once with the FIPS 180-4 padding, and HMAC equals the RFC 2104 definition for every key length.", "quantifier": "every message, every way of splitting it, every key", "why_tests_cant": "Chunk boundaries vs. 64-byte blocks give unboundedly many cases.", "anchors": ["horus_net/src/mac.rs: Sha256::update, finalize, hmac_sha256"]}
{"id": "C11", "title": "Only authentic, fresh e-stops stop the robot", "statement": "A network packet changes the e-stop state only if a key is configured, its tag is the HMAC under that key of exactly the body that was parsed, its timestamp is within 5 s of the local clock (or the local clock is unusable as documented), and the policy permits; with no key nothing ever triggers.", "quantifier": "every packet, key, clock value and policy", "why_tests_cant": "Security property over all attacker inputs.", "anchors": ["horus_net/src/estop.rs: decode_estop, verify_estop_tag, estop_packet_is_authentic, handle_remote_estop_at, classify_estop_freshness_at", "horus_net/src/mac.rs: ct_eq"]}
{"id": "C12", "title": "A genuine e-stop is always accepted and is sent four times", "statement": "An e-stop encoded by a holder of the same key is accepted by every receiver whose clock is within 5 s, with the reason truncated to at most 200 bytes and otherwise intact; the broadcaster transmits it once immediately and exactly three more times.", "quantifier": "every key, reason, timestamp, clock skew up to 5 s, every timer schedule", "why_tests_cant": "Ranges over all reasons, clocks and tick schedules.", "anchors": ["horus_net/src/estop.rs: encode_estop_with_key, decode_estop, EstopBroadcaster::tick"]}
{"id": "C13", "title": "Topic patterns mean what they say", "statement": "A topic matches an import/export pattern exactly when the pattern, with each * standing for any (possibly empty) run of characters, spells the topic name.", "quantifier": "every pattern and every name", "why_tests_cant": "Greedy matching is correct only by an argument over all strings.", "anchors": ["horus_net/src/guard.rs: glob_match"]}
{"id": "C14", "title": "Import/export guard enforces its policy", "statement": "A topic not named by the policy is never imported (deny / auto / allow-list) or exported, with the system topics as the only documented exception; Auto imports a topic only if a local subscriber exists.", "quantifier": "every configuration, every topic name and registry state", "why_tests_cant": "Configuration space is unbounded.", "anchors": ["horus_net/src/guard.rs: allow_import, allow_export", "horus_net/src/config.rs: ImportConfig::parse"]}
{"id": "C15", "title": "Peer filter admits exactly the configured networks", "statement": "A datagram is admitted iff its IPv4 (or v4-mapped) source shares the leading prefix bits of a configured network; plain IPv6 is refused; an empty or unusable list falls back to the private ranges, never to everything.", "quantifier": "every address, prefix length and list", "why_tests_cant": "All 2^32 addresses times all prefix lists.", "anchors": ["horus_net/src/netfilter.rs: Cidr::new, contains, PeerFilter::parse, admits"]}
{"id": "C16", "title": "System-topic traffic is rate limited", "statement": "In every time window the number of packets the token bucket lets through is at most its burst capacity plus the refill rate times the window length, for any arrival pattern and even if the clock steps backwards.", "quantifier": "every arrival sequence and every window", "why_tests_cant": "Unbounded schedules.", "anchors": ["horus_net/src/netfilter.rs: TokenBucket::new_at, take_at, refill"]}
{"id": "C17", "title": "Peer failure detection is accurate and reported once", "statement": "A peer whose heartbeats keep arriving within the threshold is never declared dead; a silent introduced peer is declared dead at the first check after threshold intervals; each death is reported once until the peer is heard again.", "quantifier": "every schedule of heartbeats and checks", "why_tests_cant": "Unbounded timing histories.", "anchors": ["horus_net/src/heartbeat.rs: add_peer, on_received, tick"]}
{"id": "C18", "title": "Peer table is bounded and never forgets a live peer", "statement": "The peer table never exceeds 256 entries, and an announcement from a new host can displace only a peer already declared dead, so a flood of forged announcements cannot evict a live peer.", "quantifier": "every sequence of announcements and liveness checks", "why_tests_cant": "Attack histories are unbounded.", "anchors": ["horus_net/src/peer.rs: update_peer, check_liveness, remove_dead_peers"]}
{"id": "C19", "title": "Topic matching is symmetric and type safe", "statement": "Host A plans to export a topic to host B exactly when B plans to import that topic from A, and only if name and type hash agree and A publishes and B subscribes.", "quantifier": "every pair of topic lists", "why_tests_cant": "Universally quantified over both registries.", "anchors": ["horus_net/src/discovery.rs: find_matches"]}
{"id": "C20", "title": "Delta encoding is lossless and keyframes are periodic", "statement": "Applying a produced delta to the previously sent payload gives the new payload; an unchanged payload is suppressed at most keyframe_interval-1 times in a row; what the receiver reconstructs is the published payload.", "quantifier": "every sequence of payloads", "why_tests_cant": "Histories and payload contents are unbounded.", "anchors": ["horus_net/src/optimize/delta.rs: on_outgoing, compute_delta, on_incoming"]}
{"id": "C21", "title": "Message fusion loses and reorders nothing", "statement": "Everything handed to the batching optimizer is either still buffered or has been emitted, in the same order, exactly once; buffered data is emitted within the batching window.", "quantifier": "every call sequence and timing", "why_tests_cant": "Unbounded histories.", "anchors": ["horus_net/src/optimize/fusion.rs: on_outgoing, flush", "horus_net/src/optimize/mod.rs: process_outgoing"]}
{"id": "C22", "title": "Prediction never silences a topic", "statement": "Whatever the data, at most 100 consecutive samples of a topic are suppressed by the predictor, immediate-priority messages are never suppressed or delayed, and nothing is suppressed during cold start.", "quantifier": "every sample history", "why_tests_cant": "Unbounded histories with data-dependent branches.", "anchors": ["horus_net/src/optimize/predict.rs: on_outgoing", "horus_net/src/optimize/mod.rs: process_outgoing"]}
{"id": "C23", "title": "Flow control keeps sending", "statement": "Under any reported loss a topic keeps being transmitted at least at the reduced rate: from any state, within a bounded number of send attempts one is permitted.", "quantifier": "every receive history", "why_tests_cant": "Liveness over unbounded histories.", "anchors": ["horus_net/src/flow_control.rs: SendRate::from_loss, on_received, should_send"]}
{"id": "C24", "title": "Remote presence cannot escape the presence directory", "statement": "A presence broadcast accepted from the network writes only a file named by a host id that is a single safe path component, in the configured namespace, and parsing never reads outside the packet.", "quantifier": "every packet", "why_tests_cant": "Attacker-chosen bytes.", "anchors": ["horus_net/src/presence.rs: is_safe_path_component, handle_broadcast"]}
{"id": "C25", "title": "Network writes into shared memory stay in their slot", "statement": "After a topic region has been opened for network delivery, every write lands inside the mapped region, inside exactly one slot and its stamp word, never in the header or in another slot, for any payload and any head value; a payload of the wrong size is refused.", "quantifier": "every region header, payload and write index", "why_tests_cant": "Memory safety over all header contents and 64-bit indices.", "anchors": ["horus_net/src/shm_writer.rs: open_path, write_pod, write_serialized", "horus_core/src/communication/topic/shm_layout.rs"]}
{"id": "C26", "title": "Readers of a foreign topic file never read out of bounds", "statement": "Reading a slot of any mapped topic file, however corrupted, returns nothing or bytes entirely inside the file.", "quantifier": "every file content and ordinal", "why_tests_cant": "Attacker/corruption controlled bytes.", "anchors": ["horus_core/src/communication/topic/header.rs: read_slot_inner"]}
{"id": "C30", "title": "Single-producer single-consumer topics are exact FIFO", "statement": "With one publisher and one subscriber, under every interleaving, the subscriber receives a prefix of what was successfully sent: no loss, no duplicate, no reorder, no torn value; send fails only when capacity messages are unread.", "quantifier": "every interleaving of the individual memory operations, every capacity, every message sequence", "why_tests_cant": "Interleavings are unbounded; stress tests sample them.", "anchors": ["horus_core/src/communication/topic/dispatch.rs: send_shm_sp_pod, recv_shm_spsc_pod"]}
{"id": "C31", "title": "Multi-producer topics deliver every accepted message exactly once", "statement": "With any number of publishers and one subscriber, under every interleaving, each successful send is received exactly once, each publisher's messages are received in its send order, nothing torn or unwritten is ever received.", "quantifier": "every number of producers, every interleaving, every capacity", "why_tests_cant": "Unbounded interleavings.", "anchors": ["horus_core/src/communication/topic/dispatch.rs: send_shm_mp_pod, recv_shm_mpsc_pod"]}
{"id": "C32", "title": "Competing consumers never receive the same message twice", "statement": "With one publisher and several competing subscribers, under every interleaving each message is delivered to at most one subscriber and claimed messages are in order.", "quantifier": "every number of consumers, every interleaving", "why_tests_cant": "Unbounded interleavings.", "anchors": ["horus_core/src/communication/topic/dispatch.rs: send_shm_sp_pod, recv_shm_spmc_pod"]}
{"id": "C33", "title": "Broadcast readers never return torn or stale data", "statement": "With one publisher and any number of subscribers on a broadcast topic, every value a subscriber returns is a value that was published, in publication order, never twice, and skipped messages are counted as missed exactly.", "quantifier": "every interleaving at word granularity, every number of readers, every lap count", "why_tests_cant": "Unbounded interleavings and laps.", "anchors": ["horus_core/src/communication/topic/dispatch.rs: send_shm_pod_broadcast, recv_shm_pod_broadcast", "horus_core/src/communication/topic/seqlock.rs: publish, consume"]}
{"id": "C34", "title": "Participant accounting is exact", "statement": "After any sequence of role registrations and lease expiries, the publisher and subscriber counts equal the number of registered participants with that role, at most 16 exist, re-registering is idempotent and an expired slot is reused with its old roles uncounted.", "quantifier": "every sequence of registrations, times and processes", "why_tests_cant": "Unbounded histories.", "anchors": ["horus_core/src/communication/topic/header.rs: register_role, is_lease_expired, refresh_lease"]}
{"id": "C35", "title": "A late or resynced subscriber never reads beyond or re-reads", "statement": "Re-synchronising a handle after a migration never moves it past the write position, never back before what it already delivered, and a late joiner starts at most one ring behind.", "quantifier": "every head, shared and local tail", "why_tests_cant": "All 64-bit triples.", "anchors": ["horus_core/src/communication/topic/mod.rs: resynced_tail, ensure_role"]}
{"id": "C36", "title": "Layout binding admits one layout per topic", "statement": "Whatever processes join a topic in whatever order, all that succeed agree on the layout hash; a differing layout is refused.", "quantifier": "every interleaving of joins", "why_tests_cant": "Unbounded set of processes and orders.", "anchors": ["horus_core/src/communication/topic/mod.rs: bind_layout_hash"]}
{"id": "C37", "title": "Auto-sized rings are valid", "statement": "The automatic capacity is always a power of two between 16 and 1024 and every topic creation with valid arguments yields a region whose required length covers every slot without overlap.", "quantifier": "every message size and requested capacity", "why_tests_cant": "All sizes.", "anchors": ["horus_core/src/communication/topic/mod.rs: auto_capacity", "horus_core/src/communication/topic/header.rs: init", "horus_core/src/communication/topic/shm_layout.rs"]}
{"id": "C38", "title": "Fan-out delivers each publisher's stream in order to every subscriber", "statement": "On a fan-out topic a subscriber registered for the whole time receives each publisher's successfully sent messages in order, untorn and without duplicates, and messages it is passed over (because a publisher overwrote them) are included in the count of missed messages; when publishers are between sends and a message is unread, recv returns one.", "quantifier": "every interleaving of sends, receives, joins, leaves and crashes of any publishers and subscribers", "why_tests_cant": "Unbounded histories and interleavings.", "anchors": ["horus_core/src/communication/topic/shm_fanout.rs: send_pod, recv_pod, send_serde, recv_serde, register_publisher_locked, register_subscriber_locked", "horus_core/src/communication/topic/seqlock.rs: seqlock_publish, seqlock_consume"]}
{"id": "C39", "title": "The transport always fits the participants", "statement": "For every number of publishers and subscribers the selected transport supports that many of each, publishers and subscribers of one topic in the same mode always use matching protocols, and the competing-consumer transport is never selected.", "quantifier": "all counts, payload kinds, modes and roles", "why_tests_cant": "Counts are unbounded; a table of samples cannot show that no combination pairs mismatched protocols.", "anchors": ["horus_core/src/communication/topic/header.rs: detect_optimal_backend", "horus_core/src/communication/topic/mod.rs: resolve_send_fn, resolve_recv_fn", "horus_core/src/communication/topic/types.rs: BackendMode"]}
{"id": "C40", "title": "Tensor slots are never shared by two live tensors", "statement": "At every moment each pool slot is either free or held, never both and never twice on the free list; allocation returns a slot nobody holds.", "quantifier": "every sequence of alloc, retain, release from any holders", "why_tests_cant": "Unbounded histories.", "anchors": ["horus_core/src/memory/tensor_pool.rs: alloc, retain, release, find_free_slot, return_slot, push_free_slot"]}
{"id": "C41", "title": "Live tensors never overlap in memory", "statement": "Byte ranges of any two live tensors are disjoint and inside the pool data region.", "quantifier": "every allocation history, sizes and pool configuration", "why_tests_cant": "Unbounded histories with reuse.", "anchors": ["horus_core/src/memory/tensor_pool.rs: alloc, align_up", "horus_core/src/memory/backend.rs: MmapBackend::alloc"]}
{"id": "C42", "title": "Stale tensor descriptors are powerless", "statement": "After a tensor has been released to zero, no later retain or release through its old descriptor changes any reference count, even after the slot has been reused any number of times, and double release never underflows.", "quantifier": "every history", "why_tests_cant": "ABA over unbounded reuse.", "anchors": ["horus_core/src/memory/tensor_pool.rs: try_retain, try_release, generation"]}
{"id": "C43", "title": "Freed tensor memory does not leak to the next owner", "statement": "Memory handed out by an allocation contains no byte written by a previous owner.", "quantifier": "every history of writes, frees and allocations", "why_tests_cant": "Unbounded histories.", "anchors": ["horus_core/src/memory/tensor_pool.rs: return_slot, alloc"]}
{"id": "C44", "title": "Tensor views stay inside their parent", "statement": "Any chain of slices and reshapes of a contiguous tensor addresses only bytes of the parent allocation, and element counts are preserved by reshape.", "quantifier": "every shape, stride and slice chain", "why_tests_cant": "Unbounded shapes/chains.", "anchors": ["horus_core/src/types/tensor.rs: new, slice_first_dim, view, addressed_extent_bytes, descriptor_is_within_allocation"]}
{"id": "C50", "title": "Execution order respects data dependencies", "statement": "If scheduling succeeds, every node appears in exactly one step and every producer is in an earlier step than each of its consumers; it fails exactly when the topic graph has a cycle.", "quantifier": "every set of nodes and topic declarations", "why_tests_cant": "All graphs.", "anchors": ["horus_core/src/scheduling/dependency_graph.rs: build, topological_parallel_sort"]}
{"id": "C51", "title": "Explicit-order tiers respect priorities", "statement": "Building from explicit orders puts every node in exactly one step, lower order values strictly earlier and equal values together.", "quantifier": "every assignment of orders", "why_tests_cant": "All assignments.", "anchors": ["horus_core/src/scheduling/dependency_graph.rs: build_from_order"]}
{"id": "C52", "title": "Failure policies act as configured", "statement": "Under Restart the node is restarted exactly max_restarts times and then the failure is fatal, and is not run before its exponential backoff elapsed; under Skip it is suppressed exactly after max consecutive failures for the cooldown; Ignore never stops; Fatal always stops.", "quantifier": "every history of successes and failures at any times", "why_tests_cant": "Unbounded histories.", "anchors": ["horus_core/src/scheduling/fault_tolerance/failure_policy.rs: record_failure, record_success, should_allow"]}
{"id": "C53", "title": "Emergency stop is latched and propagates once", "statement": "Once triggered, by any local or remote cause, the emergency stop stays reported for ever; a local trigger is queued for network broadcast exactly once, and a remote one never.", "quantifier": "every interleaving of triggers, queries and broadcasts", "why_tests_cant": "Unbounded histories and interleavings.", "anchors": ["horus_core/src/scheduling/safety_monitor.rs: trigger_emergency_stop, is_emergency_stop, install_emergency_stop_hook, take_pending_local_estop"]}
{"id": "C54", "title": "Graduated watchdog severities are monotone and exact", "statement": "A watchdog reports Ok up to its timeout, Warning up to twice, Expired up to three times, Critical beyond; severity never decreases with elapsed time, scaling never makes it stricter than configured.", "quantifier": "every timeout, elapsed time and scale", "why_tests_cant": "All 64-bit values.", "anchors": ["horus_core/src/scheduling/safety_monitor.rs: Watchdog::check_graduated, set_scale"]}
{"id": "C55", "title": "Degradation ladder is obeyed", "statement": "A node is warned, rate-reduced, isolated and killed exactly at its configured consecutive-miss thresholds, a killed node is never revived, and recovery happens only after the configured number of consecutive good ticks.", "quantifier": "every miss/success history and every policy", "why_tests_cant": "Unbounded histories.", "anchors": ["horus_core/src/scheduling/safety_monitor.rs: evaluate_degradation, record_successful_tick, NodeTimingState::record_tick, record_miss"]}
{"id": "C56", "title": "Critical-node violations always stop the robot", "statement": "A budget overrun, deadline miss or watchdog-critical of a critical node triggers the emergency stop in that same check, and max_deadline_misses misses in total trigger it for any node set.", "quantifier": "every history", "why_tests_cant": "Unbounded histories.", "anchors": ["horus_core/src/scheduling/safety_monitor.rs: check_tick_budget, record_deadline_miss_with_severity, check_watchdogs_graduated"]}
{"id": "C57", "title": "The flight recorder keeps exactly the latest events", "statement": "The black box always contains the most recent events in order, as many as its capacity allows, the count of lost events is exact, and after a crash the write-ahead log lacks fewer than flush_interval of the recorded events.", "quantifier": "every recording history and crash point", "why_tests_cant": "Unbounded histories and crash points.", "anchors": ["horus_core/src/scheduling/blackbox.rs: record, flush_wal, load, clear"]}
{"id": "C60", "title": "Action servers respect their concurrency limit", "statement": "The number of goals executing in a non-abandoned state never exceeds max_concurrent_goals (plus one goal being preempted under PreemptOld) and the queue never exceeds its size.", "quantifier": "every history of goals, completions, cancels and timeouts, every policy", "why_tests_cant": "Unbounded histories.", "anchors": ["horus_core/src/actions/server.rs: admit_goal, accept_goal, complete_goal, process_goal_queue, check_timeouts"]}
{"id": "C61", "title": "Every goal gets exactly one terminal status", "statement": "Each received goal is eventually reported with at most one terminal status, and no goal is both running and queued or counted twice.", "quantifier": "every history", "why_tests_cant": "Unbounded histories.", "anchors": ["horus_core/src/actions/server.rs: handle_goal, complete_goal, check_timeouts, handle_cancel"]}
{"id": "C62", "title": "Cancel requests terminate and reach exactly their goals", "statement": "A cancel request always returns, flags exactly the named goal (or all goals for cancel-all) and nothing else.", "quantifier": "every state and request", "why_tests_cant": "All ids including the reserved one.", "anchors": ["horus_core/src/actions/server.rs: handle_cancel", "horus_core/src/actions/types.rs: CancelRequest"]}
{"id": "C63", "title": "A service caller gets its own answer", "statement": "A call returns only a response carrying its own request id produced by the handler on its own payload, each request is executed at most once by the typed path, and a panicking handler or malformed response-topic name affects no other caller; the per-client topic cache stays within 64.", "quantifier": "every interleaving of clients and server", "why_tests_cant": "Unbounded histories.", "anchors": ["horus_core/src/services/server.rs: run_server_loop", "horus_core/src/services/client.rs: call, next_request_id"]}
{"id": "C64", "title": "Parameter updates are validated and versioned", "statement": "Every successful set satisfies the validation rules and was accepted by all callbacks, versions increase by one per successful set, a versioned set succeeds only if nobody changed the parameter since, and a read-only parameter never changes.", "quantifier": "every history of operations by concurrent users", "why_tests_cant": "Interleavings of concurrent updaters.", "anchors": ["horus_core/src/params.rs: set, set_with_version, remove, reset"]}
{"id": "C65", "title": "The shared log keeps the latest entries and never drops one for size", "statement": "Any log entry, whatever its field lengths, fits its slot after truncation and is stored; reading returns exactly the most recent capacity entries after the given index, in order.", "quantifier": "every entry and history", "why_tests_cant": "All strings, all histories.", "anchors": ["horus_core/src/core/log_buffer.rs: push, get_since, truncate_field"]}
{"id": "C66", "title": "A lost acknowledgement is repaired", "statement": "If a message marked as needing acknowledgement was received but its acknowledgement was lost, the retransmission is acknowledged again, so the sender stops resending.", "quantifier": "every loss pattern of data and acknowledgement packets", "why_tests_cant": "Depends on the combination of duplicate suppression and loss, for every history.", "anchors": ["horus_net/src/replicator.rs: process_incoming_message", "horus_net/src/reliability.rs: ReceiveTracker"]}
{"id": "C67", "title": "Tables keyed by network input are bounded", "statement": "Whatever packets arrive, the peer table, duplicate-suppression table, reassembly table, flow-control table and heartbeat table never exceed their configured limits.", "quantifier": "all packet histories from any number of hosts", "why_tests_cant": "An attacker chooses the keys; only an invariant over all histories bounds the tables.", "anchors": ["horus_net/src/peer.rs", "horus_net/src/heartbeat.rs", "horus_net/src/reliability.rs", "horus_net/src/fragment.rs", "horus_net/src/flow_control.rs"]}
{"id": "C68", "title": "System messages are never suppressed as duplicates", "statement": "Messages on reserved system topics (presence, logs, emergency stop) are delivered whatever sequence number they carry, and never advance the duplicate filter of other topics.", "quantifier": "all histories and sequence numbers", "why_tests_cant": "Depends on the whole history of sequence numbers.", "anchors": ["horus_net/src/reliability.rs: ReceiveTracker", "horus_net/src/replicator.rs: frame_system_topic"]}
{"id": "C69", "title": "Migration loses no unread message", "statement": "When participants join and a topic switches transport or handles resynchronise, a subscriber still receives, or counts as missed, every message it had not read yet.", "quantifier": "every interleaving of reads, publishes and migrations of all subscribers", "why_tests_cant": "Depends on the interleaving of several subscribers' resynchronisation steps.", "anchors": ["horus_core/src/communication/topic/mod.rs: handle_epoch_change, sync_local, check_migration, resynced_tail"]}
{"id": "C70", "title": "Fan-out endpoint slots are owned exclusively and recovered after crashes", "statement": "No two live publishers (or subscribers) of a fan-out topic ever hold the same endpoint slot, a live endpoint is always visible to the other side, and a newcomer is refused only when all 16 slots are held by live endpoints.", "quantifier": "every history of claims, clean releases and process deaths at any point, every assignment of process ids", "why_tests_cant": "Depends on crash points inside the claim and release code and on unbounded histories.", "anchors": ["horus_core/src/communication/topic/shm_fanout.rs: claim_endpoint_locked, deregister_publisher, deregister_subscriber, endpoint_lock_path"]}
{"id": "C71", "title": "Fan-out memory layout is disjoint and in bounds", "statement": "Every counter, stamp and message slot of every publisher/subscriber channel lies inside the created region, no two overlap, counters are aligned, and a value fits its slot.", "quantifier": "every type size, requested capacity, publisher, subscriber and slot number", "why_tests_cant": "Tests fix a few sizes; an overlap corrupts another endpoint's messages.", "anchors": ["horus_core/src/communication/topic/shm_fanout.rs: compute_slot_size, required_file_size, init_owner, build_views, ShmSpscChannel::from_raw"]}
{"id": "C72", "title": "The parallel executor ticks every due node exactly once and returns", "statement": "In one cycle of the parallel executor every node that is due ticks exactly once, no node is ticked by two threads, a node that is not due never ticks, and the cycle ends whatever the number of threads and the interleaving.", "quantifier": "every acyclic graph, set of due nodes, number of worker threads and interleaving", "why_tests_cant": "needs every interleaving of the worker threads on the shared counters and queue", "anchors": ["horus_core/src/scheduling/scheduler/mod.rs: execute_ready_dispatch"]}
{"id": "C73", "title": ".order() is respected by the parallel executor", "statement": "Without topic declarations, a node due in a cycle starts only after every due node with a smaller order value has finished.", "quantifier": "every assignment of orders, set of due nodes and interleaving", "why_tests_cant": "depends on which nodes are skipped in a given cycle and on thread timing", "anchors": ["horus_core/src/scheduling/scheduler/mod.rs: execute_ready_dispatch", "horus_core/src/scheduling/dependency_graph.rs: build_from_order"]}
{"id": "C74", "title": "Timing report is exact", "statement": "The per-node timing report covers exactly the latest ticks, up to 1024, each once, and its count of budget overruns and worst overrun are those of all ticks since start.", "quantifier": "every history of tick durations", "why_tests_cant": "Unbounded histories and ring wrap-around.", "anchors": ["horus_core/src/scheduling/safety_monitor.rs: TickRingBuffer, NodeTimingState::record_tick, timing_report"]}
{"id": "C75", "title": "The flight recorder can be read back after shutdown", "statement": "A recording saved at shutdown and loaded again yields the same events in the same order with the same loss count; a save interrupted by a crash leaves either the previous or the new recording readable; the offline viewer accepts what the recorder saves.", "quantifier": "every recording and every crash point of the save", "why_tests_cant": "Unbounded recordings; crash points inside a file write.", "anchors": ["horus_core/src/scheduling/blackbox.rs: save, load", "horus_manager/src/commands/blackbox.rs"]}
{"id": "C76", "title": "Watching a topic shows every message or says how many were lost", "statement": "Polling a topic file for messages since a position returns consecutive messages oldest first, reports exactly how many were overwritten, and the messages beyond the per-call budget are returned by the next call.", "quantifier": "every file state, position and budget, and every sequence of polls", "why_tests_cant": "Depends on counters, ring size and budget together.", "anchors": ["horus_core/src/communication/topic/header.rs: read_slots_since, read_slot_inner", "horus_manager/src/commands/topic.rs: echo_topic"]}
{"id": "C77", "title": "Remote hosts are listed exactly while they broadcast", "statement": "After any history of broadcasts and cleanups a remote host is listed exactly if its last accepted broadcast is at most thirty seconds old, with the node list it sent; scanning the directory lists exactly the live local nodes and never destroys another host's record.", "quantifier": "every history of packets and cleanups", "why_tests_cant": "Unbounded histories of timed events.", "anchors": ["horus_net/src/presence.rs: handle_broadcast, cleanup_stale, build_local_presence", "horus_core/src/core/presence.rs: read_all, is_host_record"]}
{"id": "C78", "title": "A queued action goal starts as soon as a slot is free", "statement": "Under the Queue policy a goal waits only while every slot is taken, and queued goals start in arrival order, before any later goal.", "quantifier": "every history of goals, completions, cancels and timeouts", "why_tests_cant": "Unbounded histories; needs an invariant over the queue and the slots.", "anchors": ["horus_core/src/actions/server.rs: process_goal_queue, complete_goal, check_timeouts, admit_goal"]}
{"id": "C79", "title": "A goal that overruns is asked to stop, then given up, and never without warning", "statement": "With a goal timeout, a goal within its timeout is untouched; past it, it is asked to cancel once; only if it is still running past twice the timeout, and was asked before, is it reported aborted and its slot released.", "quantifier": "every goal state, timeout and clock value, every history", "why_tests_cant": "Clock values and histories are unbounded.", "anchors": ["horus_core/src/actions/server.rs: check_timeouts, occupied_slots"]}
{"id": "C80", "title": "Every client of a running service is answered", "statement": "While a service server runs, every client whose request it executes gets the response, however many clients came before.", "quantifier": "every history of clients coming, calling and being served", "why_tests_cant": "The defect shows only after 64 clients over the server's lifetime; a proof covers every number.", "anchors": ["horus_core/src/services/server.rs: run_server_loop (per-client topic cache)"]}
{"id": "C81", "title": "A resilient call retries only transient failures, at most the configured number of times", "statement": "A resilient call makes at least one and at most retries+1 attempts, stops at the first success or permanent error, returns the last attempt's result, and every retried attempt failed transiently.", "quantifier": "every sequence of attempt results and every retry count", "why_tests_cant": "All result sequences.", "anchors": ["horus_core/src/services/client.rs: call_resilient_with", "horus_core/src/services/types.rs: is_transient"]}
{"id": "C82", "title": "Parameter sources override key by key and never lose a default", "statement": "A parameter's initial value is the environment's if it names it, else the parameter file's, else the built-in one; an unusable file is an error, never silent defaults; no source makes a built-in parameter disappear; a launch file's parameter reaches the parameter of its own name.", "quantifier": "every set of defaults, file contents and environment", "why_tests_cant": "All inputs.", "anchors": ["horus_core/src/params.rs: RuntimeParams::new, default", "horus_manager/src/commands/launch.rs: HORUS_PARAM_ environment"]}
{"id": "C83", "title": "Resetting parameters restores the built-in values", "statement": "After a reset the store holds exactly the built-in parameters, and a reset that fails leaves the parameters as they were.", "quantifier": "every prior state, callbacks and metadata", "why_tests_cant": "All states and callback behaviours.", "anchors": ["horus_core/src/params.rs: reset, set_defaults"]}
{"id": "C84", "title": "Draining the log writes each entry exactly once", "statement": "A loop that remembers the write index and repeatedly fetches the entries since it (log file writer, live log view, log replication) emits each entry logged after it started exactly once and in order.", "quantifier": "every interleaving of logging and draining, every ring size", "why_tests_cant": "The window between reading the index and fetching is a few microseconds.", "anchors": ["horus_core/src/core/log_buffer.rs: write_idx, get_since", "horus_net/src/log_replication.rs"]}
{"id": "C85", "title": "Replicated log entries arrive as logged", "statement": "A batch of log entries replicated to another host decodes there to the same entries, levels are filtered by the configured threshold only, and hostile bytes decode to a bounded result.", "quantifier": "every batch of entries and every byte string", "why_tests_cant": "All entry lists and byte strings.", "anchors": ["horus_net/src/log_replication.rs"]}
{"id": "C86", "title": "A handle that sends and receives is an ordinary participant", "statement": "Using one topic handle for both sending and receiving changes nothing for the others: what it sends reaches every other subscriber of the topic, it receives what the other publishers send, and no other publisher's message is affected.", "quantifier": "every set of handles on a topic and every interleaving of their calls", "why_tests_cant": "The single-handle shortcut is only exercised by tests with no other participant; the interaction depends on which calls each handle made before.", "anchors": ["horus_core/src/communication/topic/mod.rs: RingTopic::send, RingTopic::recv, ensure_role, handle_epoch_change", "horus_core/src/communication/topic/dispatch.rs: send_shm_mp_pod, recv_shm_mpsc_pod"]}
{"id": "C87", "title": "A handle talking to itself is a queue", "statement": "On a topic with a single handle every receive returns the oldest message sent and not yet received; a send that finds the ring full loses at most its own message.", "quantifier": "every sequence of sends, receives and backend changes on the handle, every capacity", "why_tests_cant": "Depends on the whole history of counters, wrap-around and the moment the ring is full.", "anchors": ["horus_core/src/communication/topic/mod.rs: RingTopic::send, RingTopic::recv"]}
{"id": "C88", "title": "A slow subscriber is never cut off", "statement": "A subscriber receives a gapless, ordered stretch of the published messages; if it falls behind it may miss old messages but goes on receiving newer ones.", "quantifier": "every number of publisher and subscriber handles, every interleaving, every lag", "why_tests_cant": "Requires a subscriber to be lapped at a particular position of the ring and then waiting forever.", "anchors": ["horus_core/src/communication/topic/dispatch.rs: recv_shm_mpsc_pod, send_shm_mp_pod", "horus_core/src/communication/topic/mod.rs: ensure_role"]}
{"id": "C89", "title": "Serialized messages of any size arrive unchanged and in order, and their storage is reclaimed", "statement": "On a topic of a type that is not plain old data, a subscriber receives exactly the published messages, in order and byte for byte, whether they fit a slot or are kept in the topic's pool; once everything is read all of the pool is free again, however many large messages were sent.", "quantifier": "every mix of message sizes, ring capacity, pool size, number of publishers, interleaving of sends, receives and re-synchronisations", "why_tests_cant": "A slot of the pool lost or recycled early shows only in a particular interleaving or after exhausting the pool.", "anchors": ["horus_core/src/communication/topic/dispatch.rs: send_shm_mp_serde, recv_shm_mpsc_serde, spill_to_pool, read_serde_slot, deserialize_spill_slot"]}
{"id": "C90", "title": "A message that cannot be decoded does not stop or corrupt the stream", "statement": "If a published message cannot be decoded as the subscriber's type, the subscriber skips it: later messages are still received, and no message is delivered that nobody sent.", "quantifier": "every message content, every later history of publishes and receives", "why_tests_cant": "Needs a corrupt or foreign message at the head of the ring and an unbounded wait.", "anchors": ["horus_core/src/communication/topic/dispatch.rs: recv_shm_mpsc_serde, read_serde_slot, deserialize_spill_slot"]}
{"id": "C91", "title": "Growing the slot size keeps subscribers working", "statement": "When a message is too large for the slots and the topic grows them, every subscriber goes on receiving the messages published, and only those.", "quantifier": "every message size, every moment of growth, every subscriber", "why_tests_cant": "The failure needs handles with different cached slot sizes in one history.", "anchors": ["horus_core/src/communication/topic/mod.rs: auto_grow_slot_size, sync_local", "horus_core/src/communication/topic/migration.rs: migrate_to_optimal", "horus_core/src/communication/topic/dispatch.rs: recv_shm_mpsc_serde"]}
{"id": "C92", "title": "A recording holds exactly what the node did", "statement": "With recording on, a node's recording holds one snapshot for every tick due at the configured interval, in order, with the inputs it saw and the outputs it published, cut only by the configured limits: at most max_snapshots of the newest, and no more than max_size in total.", "quantifier": "every configuration, every sequence of ticks, inputs and outputs, every kind of node", "why_tests_cant": "Whether a tick is lost or altered depends on the limits, the interval, the executor and the whole history together.", "anchors": ["horus_core/src/scheduling/record_replay.rs: NodeRecorder::begin_tick, record_input, record_output, end_tick", "horus_core/src/scheduling/scheduler/mod.rs: prepare_node_tick, process_tick_result", "horus_core/src/scheduling/rt_executor.rs: tick_node"]}
{"id": "C93", "title": "A saved recording survives a crash and loads back unchanged", "statement": "Loading a saved recording gives it back exactly. If the process dies at any moment of a save, a later load gives the previous recording or the new one, whole; a truncated or foreign file is refused; other files are untouched.", "quantifier": "every recording, every crash point, every split of the write, every cut of the file", "why_tests_cant": "Crash points and truncations are unbounded in number, and the round trip is over all recordings.", "anchors": ["horus_core/src/scheduling/record_replay.rs: NodeRecording::save, load, load_from_bytes, session_recordings"]}
{"id": "C94", "title": "Replay publishes what was recorded", "statement": "Replaying a recording publishes, tick by tick, the outputs recorded for the node, with overrides in place of the recorded data, starting at the requested tick, in the recorded order and at the recorded times.", "quantifier": "every recording, every program of scheduler calls, every number of ticks", "why_tests_cant": "Needs whole programs and histories; the existing tests only check that replay does not panic.", "anchors": ["horus_core/src/scheduling/scheduler/recording.rs: add_replay, replay_from, start_at_tick, with_override", "horus_core/src/scheduling/scheduler/mod.rs: prepare_node_tick, initialize_filtered_nodes, should_tick_node", "horus_core/src/core/clock.rs: ReplayClock"]}
{"id": "C95", "title": "The debugger goes where it is told", "statement": "Stepping forward and back move by exactly one snapshot and undo each other, seek lands on the first snapshot at or after the requested tick, continue stops at the first snapshot where an enabled breakpoint's condition holds, and a saved session reopens at the same place with the same breakpoints and watches.", "quantifier": "every recording, every breakpoint condition, every sequence of debugger commands", "why_tests_cant": "Quantifies over all command histories and recordings.", "anchors": ["horus_core/src/scheduling/record_replay.rs: ReplayDebugger, NodeReplayer::seek, advance, Breakpoint::should_trigger, DebugSession"]}
{"id": "C96", "title": "Comparing recordings finds every difference and only differences", "statement": "diff_recordings reports an output, a missing output or a missing tick exactly when the two recordings differ there, and reports nothing exactly when they are the same.", "quantifier": "every pair of recordings", "why_tests_cant": "Soundness and completeness over all pairs.", "anchors": ["horus_core/src/scheduling/record_replay.rs: diff_recordings"]}
{"id": "C97", "title": "Recording names stay in their directory and are found again", "statement": "Whatever name a session or node has, its files lie inside the session's directory, different nodes use different files, and replay finds what was saved.", "quantifier": "every session name, node name and node id", "why_tests_cant": "Names are arbitrary strings, hostile ones included.", "anchors": ["horus_core/src/scheduling/record_replay.rs: sanitize_path_component, node_path", "horus_core/src/scheduling/scheduler/mod.rs: add_configured", "horus_core/src/scheduling/scheduler/recording.rs: replay_from"]}
{"id": "C98", "title": "A node is initialised before it is ticked or shut down, and not ticked after it was stopped", "statement": "In every history, a successful init of a node precedes its first tick and its shutdown; a node that has been stopped or killed is never ticked again.", "quantifier": "every history of adding nodes, runs, single ticks, failures and stops; every init result", "why_tests_cant": "Histories of registration, runs, failures and stops are unbounded.", "anchors": ["horus_core/src/scheduling/scheduler/mod.rs: initialize_nodes, execute_single_node, should_tick_node, shutdown_nodes", "horus_core/src/scheduling/rt_executor.rs, compute_executor.rs, event_executor.rs, async_executor.rs"]}
{"id": "C99", "title": "Every initialised node is shut down exactly once", "statement": "When a run ends, every node whose init succeeded gets exactly one shutdown call.", "quantifier": "every run and failure pattern", "why_tests_cant": "Histories of registration, runs, failures and stops are unbounded.", "anchors": ["horus_core/src/scheduling/scheduler/mod.rs: finalize_run, shutdown_nodes", "horus_core/src/scheduling/rt_executor.rs: kill handling", "horus_core/src/scheduling/compute_executor.rs"]}
{"id": "C100", "title": "A scheduler can be run again", "statement": "After a run has returned, calling run again runs the nodes again.", "quantifier": "every program of calls", "why_tests_cant": "Histories of registration, runs, failures and stops are unbounded.", "anchors": ["horus_core/src/scheduling/scheduler/mod.rs: run, run_for, stop, finalize_run"]}
{"id": "C101", "title": "A stopped run stops", "statement": "Once stop has been requested, each node is ticked at most once more.", "quantifier": "every schedule of the main loop and the executors after the request", "why_tests_cant": "Histories of registration, runs, failures and stops are unbounded.", "anchors": ["horus_core/src/scheduling/scheduler/mod.rs: run loop, stop", "horus_core/src/scheduling/rt_executor.rs, compute_executor.rs, event_executor.rs, async_executor.rs"]}
{"id": "C102", "title": "A paused scheduler ticks nothing", "statement": "While the scheduler is paused, no node is ticked (beyond the tick already in flight).", "quantifier": "every history between pause and resume", "why_tests_cant": "Histories of registration, runs, failures and stops are unbounded.", "anchors": ["horus_core/src/scheduling/scheduler/mod.rs: pause handling, should_tick_node", "horus_core/src/scheduling/rt_executor.rs: pause gate"]}
{"id": "C103", "title": "A failed init is handled per its severity", "statement": "A transiently failing init is tried again while the scheduler runs; a fatal failure prevents the run.", "quantifier": "every sequence of init results", "why_tests_cant": "Histories of registration, runs, failures and stops are unbounded.", "anchors": ["horus_core/src/scheduling/scheduler/mod.rs: initialize_nodes, reinit_pending_nodes"]}
{"id": "C104", "title": "A node filter restricts a run", "statement": "A run restricted to some nodes ticks no other node.", "quantifier": "every set of nodes and filter", "why_tests_cant": "Histories of registration, runs, failures and stops are unbounded.", "anchors": ["horus_core/src/scheduling/scheduler/mod.rs: run_with_filter, finalize, initialize_nodes"]}
{"id": "C105", "title": "A node's configured rate is kept", "statement": "A node never ticks faster than its rate, and ticks at its rate when the loop keeps up.", "quantifier": "every rate, loop period and timing of the loop", "why_tests_cant": "Histories of registration, runs, failures and stops are unbounded. Timing races appear only over long runs.", "anchors": ["horus_core/src/scheduling/scheduler/mod.rs: should_tick_node, run loop sleep", "horus_core/src/scheduling/rt_executor.rs: rate gate", "horus_core/src/scheduling/compute_executor.rs: rate gate, sleep"]}
{"id": "C106", "title": "Deterministic runs cover exactly the requested time", "statement": "In deterministic mode, run_for(d) advances virtual time by d in ticks of the configured period and ends, whatever the wall clock does.", "quantifier": "every duration, period and graph shape", "why_tests_cant": "Ranges over all durations, periods and graphs.", "anchors": ["horus_core/src/scheduling/scheduler/mod.rs: deterministic run loop, SimClock advance", "horus_core/src/core/clock.rs: SimClock"]}
{"id": "C107", "title": "Load shedding spares important nodes and ends", "statement": "Load shedding on the compute executor skips only nodes of order 200 and above, starts only after an overrun, and ends when the load goes away.", "quantifier": "every history of overruns and due nodes", "why_tests_cant": "Shedding depends on the whole history of overruns.", "anchors": ["horus_core/src/scheduling/compute_executor.rs: shedding"]}
{"id": "C108", "title": "RT nodes do not delay one another", "statement": "Each RT node runs on a thread of its own.", "quantifier": "every set of RT nodes and every dependency graph", "why_tests_cant": "Ranges over all graphs.", "anchors": ["horus_core/src/scheduling/scheduler/mod.rs: RT chain partition", "horus_core/src/scheduling/rt_executor.rs"]}
{"id": "C109", "title": "An event node runs once per message", "statement": "A node triggered by a topic gets exactly one tick for every message published on that topic, none lost while it was held back.", "quantifier": "every interleaving of publishers, watchers and registrations", "why_tests_cant": "The schedules are unbounded and the loss needs particular interleavings.", "anchors": ["horus_core/src/core/node.rs: set_event_notifier_with_topic, notify_event", "horus_core/src/scheduling/event_executor.rs: watcher loop", "horus_core/src/communication/topic/mod.rs: send, try_send, send_blocking"]}
{"id": "C110", "title": "A stale subscription is reported, a live one is not", "statement": "A subscription with a timeout is reported stale exactly when no message has arrived for longer than the timeout, and its policy is then applied.", "quantifier": "every sequence of checks, counters and clock values", "why_tests_cant": "Ranges over all timings.", "anchors": ["horus_core/src/scheduling/types.rs: SubscriptionFreshness", "horus_core/src/scheduling/scheduler/mod.rs: freshness check after a tick"]}
{"id": "C111", "title": "All open handles of a topic share one memory", "statement": "While a process has a topic open, every other process that opens that topic gets the same memory, whatever else opens, closes, crashes or is cleaned up meanwhile; the file is removed by the last close and by no other.", "quantifier": "every number of processes and every interleaving of the system calls of open, close, crash, growth and stale-file sweeps", "why_tests_cant": "The races need particular interleavings of system calls in different processes.", "anchors": ["horus_sys/src/shm/linux.rs: ShmRegion::new, Drop", "horus_core/src/communication/topic/mod.rs: open of a shared ring", "horus_manager/src/discovery/topics.rs: cleanup_stale_topics_in_dir"]}
{"id": "C112", "title": "A mapped topic is backed by its file", "statement": "Every byte of an open handle's mapping lies inside the topic's file, so no access to it can raise SIGBUS, whatever sizes other processes open or grow the topic with.", "quantifier": "every set of sizes and every interleaving of opens, growths, closes and crashes", "why_tests_cant": "The size is checked and set in separate system calls; a failure needs a particular interleaving.", "anchors": ["horus_sys/src/shm/linux.rs: ShmRegion::new, Drop", "horus_sys/src/shm/linux.rs: grow"]}
{"id": "C113", "title": "Two processes on one topic agree about the message type", "statement": "Opening an existing topic succeeds only if the message type fits the type it was created with: same name, and same size for fixed-size types; otherwise the open fails with an error.", "quantifier": "all message types, all histories of opens, closes and crashes by any number of processes", "why_tests_cant": "The check and the creator's header write can interleave with other opens in any way.", "anchors": ["horus_core/src/communication/topic/mod.rs: open of a shared ring", "horus_core/src/communication/topic/header.rs: type name and size fields"]}
{"id": "C114", "title": "A topic left by a killed process can be used again", "statement": "If every process using a topic was killed at an arbitrary point, the topic can be opened again and works.", "quantifier": "every crash point of creators and users, every later sequence of opens", "why_tests_cant": "Ranges over crash points between system calls.", "anchors": ["horus_sys/src/shm/linux.rs: ShmRegion::new, Drop", "horus_core/src/communication/topic/mod.rs: open of a shared ring", "horus_sys/src/shm/mod.rs: is_shm_file_stale"]}
{"id": "C115", "title": "A topic name means one file, inside the topics directory", "statement": "No accepted topic name reaches a file outside the topics directory, different accepted names mean different files, and no topic's bookkeeping file is another topic's file.", "quantifier": "all strings", "why_tests_cant": "Ranges over all names, including those an attacker would pick.", "anchors": ["horus_sys/src/shm/mod.rs: validate_region_name, topic meta files", "horus_core/src/communication/topic/mod.rs: validate topic name"]}
{"id": "C116", "title": "Robots with different namespaces do not see each other", "statement": "Differently named namespaces use different directories; a directory another user owns is refused; hardening a directory only removes permissions; cleaning up never removes the directory of a namespace in use.", "quantifier": "all namespace names, users, modes and sets of live processes", "why_tests_cant": "Ranges over all names and process tables.", "anchors": ["horus_sys/src/shm/mod.rs: horus_namespace, sanitize, ensure owned dir, cleanup_stale_namespaces"]}
{"id": "C117", "title": "Every language sees a message at the same offsets", "statement": "For every package `horus msg gen` accepts, the size, alignment and field offsets it asserts in the generated code of each language are those of the C layout rules, fields never overlap and lie inside the message, messages are laid out from the ones they use, and a package that declares each message before its uses is accepted.", "quantifier": "all packages of message definitions", "why_tests_cant": "Ranges over all definitions and nestings.", "anchors": ["horus_manager/src/msgspec/layout.rs: compute, size_align, round_up", "horus_manager/src/commands/msg.rs: generate_messages"]}
{"id": "C118", "title": "topic echo prints what was published or a hex dump", "statement": "When `horus topic echo` decodes a payload, every number, text, array and nested struct it prints is the value stored in the bytes; a payload of another length is never decoded; a payload of a known type of moderate nesting always is.", "quantifier": "all struct definitions, all values, all payloads", "why_tests_cant": "Ranges over all types and byte strings.", "anchors": ["horus_manager/src/commands/pod_decode.rs: decode, render, struct_layout, as_fixed_string", "horus_manager/src/commands/msg.rs: parse_field"]}
{"id": "C119", "title": "The .hmsg parser accepts exactly the grammar and loses no message", "statement": "A file is accepted exactly if it is a sequence of well-formed messages, and then every one of them, with all its fields and its topic, is in the result, in order.", "quantifier": "all token sequences", "why_tests_cant": "Ranges over all files, including broken ones.", "anchors": ["horus_manager/src/msgspec/parse.rs: parse_file, parse_message, parse_attrs, parse_type"]}
{"id": "C120", "title": "The layout hash sees every change of a definition", "statement": "The text the layout hash is computed over determines the name, the field names, the field order and the field types of a message; and the types the generator writes are read back unchanged by the printer.", "quantifier": "all pairs of message definitions", "why_tests_cant": "Ranges over all pairs of definitions.", "anchors": ["horus_manager/src/msgspec/canonical.rs: canonical_form, render_rust, layout_hash", "horus_manager/src/commands/pod_decode.rs: parse_type"]}
{"id": "C121", "title": "A client waiting for a goal is told what the server decided", "statement": "After each pump a waiter is told the server's verdict and never that a published result is missing; once the server has decided, the next pump answers; an answer never changes; the verdict is unique.", "quantifier": "all goals, all histories of a server that publishes a goal's result before its terminal status, all pump and clock schedules", "why_tests_cant": "Ranges over all interleavings of publication, pumping and time.", "anchors": ["horus_core/src/actions/client.rs: process_messages, handle_status_update, handle_result, sweep_stale_terminal_goals, await_result, await_result_with_feedback, send_goal_with_priority", "horus_core/src/actions/server.rs: complete_goal, publish_result, publish_status"]}
{"id": "C122", "title": "The action client's counters count every goal once", "statement": "The outcomes counted never exceed the goals sent, counting twice changes nothing, and every goal that succeeded or failed is counted.", "quantifier": "all histories and schedules", "why_tests_cant": "Ranges over all histories of goals.", "anchors": ["horus_core/src/actions/client.rs: tick, metrics_counted, goals_succeeded, goals_failed"]}
{"id": "C123", "title": "Action callbacks see every message once and in order", "statement": "The status, feedback and result callbacks of a client are called exactly once per published message, in publication order, and a waiter's feedback callback is called for each new feedback message.", "quantifier": "all histories, any number of pumping threads", "why_tests_cant": "Ranges over all interleavings.", "anchors": ["horus_core/src/actions/client.rs: process_messages, handle_feedback, await_result_with_feedback"]}
{"id": "C124", "title": "A grid cell reads back what was last written to it", "statement": "After any calls on an occupancy grid every cell inside it reads the last value written to it (single-cell writes clamped to -1..100), whatever was written elsewhere; coordinates outside read nothing and are refused; a row is its cells.", "quantifier": "all grid sizes, all call sequences, all coordinates", "why_tests_cant": "Ranges over all sizes, including those where index arithmetic overflows, and all call sequences.", "anchors": ["horus_core/src/memory/occupancy_grid.rs: get_cell, set_cell, fill, clear, reset, row"]}
{"id": "C125", "title": "A cost map's two layers never disturb each other", "statement": "After any calls on a cost map both layers of every cell hold what the calls made of that cell; applying the occupancy makes exactly the occupied cells lethal; a lethal cell is never traversable and a traversable one is known.", "quantifier": "all map sizes, thresholds, call sequences, coordinates", "why_tests_cant": "Ranges over all call sequences and sizes.", "anchors": ["horus_core/src/memory/costmap.rs: get_occupancy, set_occupancy, get_cost, set_cost, is_lethal, is_traversable, apply_from_occupancy"]}
{"id": "C126", "title": "World and grid coordinates agree", "statement": "Every point of a map is given the cell that contains it, a cell's centre is given back that cell, points off the map get none, and the map's position and orientation are honoured; a point is never both free and occupied.", "quantifier": "all maps, points and cells", "why_tests_cant": "Ranges over all real points, including those at cell edges, and all origins, orientations and resolutions.", "anchors": ["horus_core/src/memory/occupancy_grid.rs: world_to_grid, grid_to_world, is_free, is_occupied", "horus_core/src/memory/costmap.rs: world_to_grid, grid_to_world"]}
{"id": "C127", "title": "A pixel reads back what was last written to it", "statement": "For every encoding, after any calls on an image each pixel holds the bytes last given for it, calls outside the image or with a value of the wrong size change nothing, and pixels outside read nothing.", "quantifier": "all sizes, encodings, call sequences", "why_tests_cant": "Ranges over all sizes, encodings and call sequences.", "anchors": ["horus_core/src/memory/image.rs: pixel, set_pixel, fill", "horus_core/src/types/image_descriptor.rs: ImageDescriptor::new", "horus_core/src/types/image_encoding.rs"]}
{"id": "C128", "title": "A region of interest is exactly its pixels", "statement": "Extracting a region that lies inside the image gives its pixels row by row with none missing; any other region is refused.", "quantifier": "all images, regions, including coordinates near the integer limit", "why_tests_cant": "Ranges over all regions and histories.", "anchors": ["horus_core/src/memory/image.rs: roi"]}
{"id": "C129", "title": "A depth pixel reads back what was stored", "statement": "A metre image gives back the stored value bit for bit; a millimetre image gives back at most one millimetre less; a value that does not fit is refused and changes nothing; other pixels are untouched.", "quantifier": "all sizes, values, call sequences", "why_tests_cant": "Ranges over all values and call sequences.", "anchors": ["horus_core/src/memory/depth_image.rs: get_depth, set_depth, get_depth_u16"]}
{"id": "C130", "title": "Points come back as they were given", "statement": "A cloud built from points has that many points, gives each back in order, and its coordinates are their first three fields; a claimed size the data does not back is refused.", "quantifier": "all point lists, all corrupted descriptors", "why_tests_cant": "Ranges over all lists and descriptors.", "anchors": ["horus_core/src/memory/pointcloud.rs: from_xyz, from_xyzi, from_xyzrgb, point_at, extract_xyz"]}
{"id": "C131", "title": "A frame name reads back as it was set", "statement": "A frame name that fits is given back as it was set, whatever was set before; a longer one is cut to a prefix and never becomes a different name.", "quantifier": "all Unicode names, all earlier names", "why_tests_cant": "Ranges over all Unicode strings, including those cut inside a character.", "anchors": ["horus_core/src/types/mod.rs: impl_frame_id_field", "horus_core/src/types/costmap_descriptor.rs: frame_id, set_frame_id"]}
{"id": "C132", "title": "Node code is told the truth about its own tick", "statement": "During a tick horus::now(), dt(), elapsed(), tick() and budget_remaining() answer for the node and tick being run at the moment they are asked, whatever ran on the thread before, including ticks that panicked; outside ticks they give the documented neutral answers; timestamps are comparable.", "quantifier": "all thread histories, all nodes, all sequences of questions, panics at any point", "why_tests_cant": "Ranges over all histories of a thread: a stale context left by any earlier tick would be visible only in some of them.", "anchors": ["horus_core/src/core/tick_context.rs: set_tick_context, clear_tick_context, ctx_now, ctx_dt, ctx_elapsed, ctx_tick, ctx_budget_remaining, ctx_with_rng", "horus/src/time.rs: now, since, dt, elapsed, tick, budget_remaining, rng"]}
{"id": "C133", "title": "Random numbers in a tick are reproducible", "statement": "The numbers a node draws with horus::rng in a tick depend only on its name and tick number: the k-th draw is the same on every thread and after every history; different ticks use different seeds.", "quantifier": "all histories, threads, node names, tick numbers below 2^64", "why_tests_cant": "Ranges over all histories and all pairs of tick numbers.", "anchors": ["horus_core/src/core/tick_context.rs: deterministic_seed, set_tick_context, ctx_with_rng", "horus/src/time.rs: rng"]}
{"id": "C134", "title": "budget_remaining is the budget less the time used", "statement": "During a tick budget_remaining() is the configured budget minus the time this tick has been running, never below zero, so the documented anytime loop stops in time.", "quantifier": "all budgets, start times, questions, modes", "why_tests_cant": "Ranges over all schedules of a round and all times.", "anchors": ["horus_core/src/core/tick_context.rs: ctx_budget_remaining", "horus_core/src/scheduling/scheduler/mod.rs: run_node_tick, execute_ready_dispatch", "horus_core/src/scheduling/primitives.rs: set_node_tick_context"]}
{"id": "C135", "title": "Virtual and replayed time run forward and as recorded", "statement": "The virtual clock shows exactly the sum of what it was advanced by and never goes back; the replay clock shows one recorded time per tick, in order, and then stays on the last.", "quantifier": "all sequences of advances and resets, all recordings", "why_tests_cant": "Ranges over all operation sequences and recordings, including hostile ones.", "anchors": ["horus_core/src/core/clock.rs: SimClock, ReplayClock", "horus_core/src/scheduling/scheduler/recording.rs: replay_tick_period_ns, replay_from"]}
{"id": "C136", "title": "Timesteps add up to the time that passed", "statement": "In a deterministic run the dt() values a node has been given add up to the virtual time elapsed between its ticks.", "quantifier": "all loop periods, node rates, graphs and run lengths", "why_tests_cant": "Ranges over all configurations and run lengths.", "anchors": ["horus_core/src/scheduling/scheduler/mod.rs: should_tick_node, run_node_tick, execute_nodes", "horus/src/time.rs: dt, elapsed"]}
{"id": "C137", "title": "A rate-limited loop keeps its rate", "statement": "A loop that calls Rate::sleep once per cycle never runs faster than configured, makes up for at most one cycle after a slow one, does not drift, and actual_hz reports the frequency achieved.", "quantifier": "all periods, work times, wake-up delays, call counts", "why_tests_cant": "Ranges over all sequences of work times and wake-up delays.", "anchors": ["horus_core/src/core/timer.rs: Rate::sleep, actual_hz, is_late"]}
{"id": "C138", "title": "Budget, deadline and period of a frequency are ordered", "statement": "For every frequency the default budget is at most the default deadline and that at most the period, with room between them for every rate in use; the period is 1/f to the nanosecond.", "quantifier": "all positive frequencies", "why_tests_cant": "Ranges over all frequencies, including absurd ones.", "anchors": ["horus_core/src/core/duration_ext.rs: Frequency::period, budget_default, deadline_default"]}
{"id": "C139", "title": "Every node takes part in every tick_once", "statement": "Every node added before the first tick_once() is ticked exactly once by every call, whatever topics the nodes use, whatever their orders, also when the topics form a loop (then in .order() order); no call indexes a node that is not there.", "quantifier": "all node lists, orders, registries and call histories, all topic uses in init and tick", "why_tests_cant": "Ranges over all histories of topic registrations and graph rebuilds.", "anchors": ["horus_core/src/scheduling/scheduler/mod.rs: tick_once, execute_single_tick, finalize_and_init, build_dependency_graph", "horus_core/src/scheduling/dependency_graph.rs: DependencyGraph::build"]}
{"id": "C140", "title": "A node added between calls takes part from the next call", "statement": "A node added after the first tick_once() is initialised and ticked by every later call.", "quantifier": "all histories of adds and calls", "why_tests_cant": "Ranges over all histories; depends on which registrations happened before the first call.", "anchors": ["horus_core/src/scheduling/scheduler/mod.rs: execute_single_tick, reinit_pending_nodes, add_configured_internal"]}
{"id": "C141", "title": "Known topics order the ticks", "statement": "Once nodes have used their topics, every later tick_once() ticks the publisher of a topic before its subscribers.", "quantifier": "all node lists, topic uses (forming no loop) and call histories", "why_tests_cant": "Ranges over all histories of registrations: the decision to rebuild depends on them.", "anchors": ["horus_core/src/scheduling/scheduler/mod.rs: execute_single_tick, execute_nodes, finalize_and_init", "horus_core/src/communication/topic/mod.rs: TopicNodeRegistry::register_with_type, version, publishers_for_node, subscribers_for_node"]}
{"id": "C142", "title": "The builder accepts exactly the sensible configurations", "statement": "build() accepts a sequence of builder calls exactly when the last values given for rate, budget, deadline and execution class (and no_alloc and freshness timeouts) fit together as documented, and the node then runs with exactly those values, with the documented defaults; order and repetition of the calls do not matter.", "quantifier": "all sequences of builder calls with all values", "why_tests_cant": "Ranges over all sequences of calls and all numbers.", "anchors": ["horus_core/src/scheduling/node_builder.rs: NodeRegistration setters, finalize, validate, NodeBuilder::build", "horus_core/src/scheduling/scheduler/mod.rs: add_configured_internal"]}
{"id": "C143", "title": "Accepted timing is consistent", "statement": "An accepted real-time node has a budget no longer than its deadline and a deadline no longer than its period.", "quantifier": "all accepted builder call sequences", "why_tests_cant": "Ranges over all combinations of rates, budgets and deadlines.", "anchors": ["horus_core/src/scheduling/node_builder.rs: finalize, validate"]}
{"id": "C144", "title": "The loop period fits the configured rate and every node", "statement": "The cycle length the scheduler starts with is the period of the faster of the configured rate and the fastest node.", "quantifier": "all global rates and node rates", "why_tests_cant": "Ranges over all rates.", "anchors": ["horus_core/src/scheduling/scheduler/mod.rs: finalize_config, adjust_tick_period_for_node_rates"]}
{"id": "C145", "title": "Node names are printable and unique", "statement": "A stored node name contains no control character, ordinary names are stored unchanged, and the scheduler refuses to run exactly when two of its nodes have the same name.", "quantifier": "all lists of names", "why_tests_cant": "Ranges over all strings and all sequences of additions.", "anchors": ["horus_core/src/core/presence.rs: escape_control_chars", "horus_core/src/scheduling/scheduler/mod.rs: add_configured_internal, tick_once, run_with_filter"]}
{"id": "C146", "title": "Presence files of accepted names stay in their directory", "statement": "A presence file is written only for names of 1-255 characters from a-z A-Z 0-9 _ - . without two dots in a row; its file name has no separator, is not a dot name, and is different for different nodes.", "quantifier": "all names", "why_tests_cant": "Ranges over all strings.", "anchors": ["horus_core/src/core/presence.rs: validate_node_name, NodePresence::new, presence_path"]}
{"id": "C147", "title": "A send that may wait publishes once or says it did not", "statement": "send_blocking returns Ok exactly when its message was put into the topic, once, and Timeout only when it was not and the deadline has passed; it returns at the first look at the clock past the deadline, never pauses with a zero timeout, and uses room that is there early. send gives up after at most 70 attempts, and dropped_count is exactly the number of messages it lost. The topic's message counter counts the messages.", "quantifier": "all behaviours of the other handles between any two attempts, all clock readings, timeouts and call histories", "why_tests_cant": "Ranges over every interleaving of other handles with the attempts and every clock.", "anchors": ["horus_core/src/communication/topic/mod.rs: send, send_lossy, send_lossy_retry, send_blocking, try_send", "horus_core/src/communication/topic/types.rs: SendBlockingError"]}
{"id": "C148", "title": "has_message and pending_count agree with recv", "statement": "has_message() is true exactly when the next recv() returns a message, and pending_count() is the number of messages this handle has still to receive.", "quantifier": "all histories of sends and receives on all handles of a topic", "why_tests_cant": "Ranges over all histories of all handles: the count is computed from shared and private positions that move at different times.", "anchors": ["horus_core/src/communication/topic/mod.rs: has_message, pending_count, recv"]}
{"id": "C149", "title": "read_latest returns the last published message", "statement": "read_latest() returns the message published last, however much has been received, none only if nothing was published, and it changes nothing for any handle.", "quantifier": "all histories of sends and receives; every moment during a send", "why_tests_cant": "Ranges over all histories and over the instants inside another thread's send.", "anchors": ["horus_core/src/communication/topic/mod.rs: read_latest", "horus_core/src/communication/topic/dispatch.rs: send_shm_mp_pod"]}
{"id": "C150", "title": "Dependency resolution satisfies every requirement", "statement": "When resolving dependencies succeeds, the versions chosen satisfy every requirement of the project and of every chosen package, each is the highest version that does, the result does not depend on the order of requirements, and resolving always ends. It fails only if no installable set exists.", "quantifier": "all registries, version lists, dependency lists and requirement orders", "why_tests_cant": "Ranges over every registry contents and every dependency graph, including ones in which versions disagree about their dependencies.", "anchors": ["horus_manager/src/dependency_resolver.rs: DependencyResolver::resolve, find_best_version_with_requirements", "horus_manager/src/registry/install.rs: install_dependencies"]}
{"id": "C151", "title": "A lock file says what was pinned last, in one form", "statement": "After any sequence of pins and removals horus.lock holds for each package exactly what was pinned last, and the same pins give byte for byte the same file whatever the order of commands. A changed manifest is noticed before building, and no command loses pins.", "quantifier": "all sequences of commands and all manifests", "why_tests_cant": "Ranges over all command histories and all dependency texts.", "anchors": ["horus_manager/src/lockfile.rs: pin, load_from, is_stale, hash_config", "horus_manager/src/commands/run/install.rs", "horus_manager/src/main.rs", "horus_manager/src/commands/pkg.rs"]}
{"id": "C152", "title": "A reader never sees a half-written state file", "statement": "Whenever a process stops while saving a manifest, lock file or registry, and whenever another process reads meanwhile, the file read is the old one or the new one, whole.", "quantifier": "all crash points and all interleavings of any number of savers and readers", "why_tests_cant": "Ranges over all crash points and interleavings.", "anchors": ["horus_manager/src/lockfile.rs: save_to", "horus_manager/src/manifest.rs", "horus_manager/src/plugins/trust.rs", "horus_core/src/scheduling/launch.rs", "horus_core/src/core/presence.rs", "horus_core/src/scheduling/record_replay.rs"]}
{"id": "C153", "title": "Only accepted plugins run", "statement": "A plugin runs only if the user accepted exactly these bytes (by installing it themselves or with `horus plugin trust`); cloning or pulling a project makes nothing run, and an unreadable list of accepted plugins means nothing is accepted.", "quantifier": "all histories of installs, trust decisions, pulls of project files and runs", "why_tests_cant": "Ranges over all histories mixing the user's decisions with files an attacker controls.", "anchors": ["horus_manager/src/plugins/executor.rs", "horus_manager/src/plugins/trust.rs", "horus_manager/src/plugins/resolver.rs", "horus_manager/src/commands/pkg.rs"]}
{"id": "C154", "title": "Disabling, checking and untrusting plugins takes effect", "statement": "A disabled plugin does not run until it is enabled, a plugin whose file no longer matches its recorded checksum does not run, and after `untrust` it does not run.", "quantifier": "all histories of plugin commands and file changes", "why_tests_cant": "Ranges over all histories and over file changes between the check and the run.", "anchors": ["horus_manager/src/plugins/executor.rs", "horus_manager/src/plugins/resolver.rs", "horus_manager/src/plugins/registry.rs: disable, enable", "horus_manager/src/plugins/trust.rs"]}
{"id": "C155", "title": "Unpacking a package touches nothing outside its directory", "statement": "Whatever a downloaded archive holds (parent components, absolute paths, links written through afterwards, repeated entries), unpacking it changes nothing outside the extraction directory, and following its links from inside never leaves it.", "quantifier": "all archives and all file systems", "why_tests_cant": "Ranges over all archives: an escape may need several entries that are harmless one by one.", "anchors": ["horus_manager/src/registry/install.rs: install_from_registry, install_binary_artifact (extraction loops)"]}
{"id": "C156", "title": "Installing a package is all or nothing", "statement": "If an installation is interrupted the package directory holds the old package or the new one, whole; two installations at once do not mix; the copy holds exactly the package's files; installing ends; and the package lands in its own directory of the cache.", "quantifier": "all packages, crash points, interleavings of two installations, names and versions", "why_tests_cant": "Ranges over crash points, interleavings and link structures inside the package.", "anchors": ["horus_manager/src/registry/install.rs: install_from_registry, install_binary_artifact (staging and swap)", "horus_manager/src/registry/helpers.rs: copy_dir_all, copy_dir_all_inner, detect_package_version"]}
{"id": "C157", "title": "What is installed is what the publisher signed", "statement": "A download is installed only if it matches the checksum the registry states, and, if the publisher's key is on file, only if the publisher signed it. Keys are only read from the key directory.", "quantifier": "all packages, names, keys on file and server answers", "why_tests_cant": "Ranges over all answers of a server that may be hostile.", "anchors": ["horus_manager/src/registry/install.rs: verify_against_publisher_key, install_from_registry, install_binary_artifact", "horus_manager/src/paths.rs: publisher_key_path"]}
{"id": "C158", "title": "Package names have their own directory and address", "statement": "Every accepted package name is kept in one directory with a safe name, different packages in different directories, and asked for under an address that decodes to that name and nothing else.", "quantifier": "all package names", "why_tests_cant": "Ranges over all names: a collision is between two names.", "anchors": ["horus_manager/src/registry/mod.rs: validate_package_name, validate_name_segment, url_encode_package_name, package_name_to_path"]}
{"id": "C159", "title": "Shared buffers live exactly as long as someone uses them", "statement": "An image, point cloud, depth image or tensor whose handle someone holds, or that a topic keeps for its last message, is never freed or handed out again; when the last user is gone its slot is returned to the pool; topics hold at most one buffer each.", "quantifier": "all histories of allocating, cloning, dropping, sending, receiving and closing over any number of topics, handles and pools", "why_tests_cant": "Ranges over all histories: a leak or a use after free shows only after particular orders of sends, refusals and drops.", "anchors": ["horus_core/src/memory/tensor_handle.rs", "horus_core/src/memory/mod.rs", "horus_core/src/communication/topic/topic_message.rs", "horus_core/src/communication/topic/mod.rs: send, try_send, recv for pool-backed types"]}
{"id": "C160", "title": "A waiting image can be received", "statement": "A receiver gets every pool-backed message that is waiting in the topic, with the contents it was sent with.", "quantifier": "all histories of sends and receives over any number of topics and pools", "why_tests_cant": "Ranges over all orders of sending, dropping and receiving.", "anchors": ["horus_core/src/communication/topic/mod.rs: impl Topic<Image>, Topic<PointCloud>, Topic<DepthImage>", "horus_core/src/communication/topic/topic_message.rs"]}
{"id": "C161", "title": "A launch file starts every node after what it depends on", "statement": "`horus launch` starts every node of the file once, each after all nodes it depends on; it fails before starting anything if dependencies are cyclic; and when starting fails nothing is left running.", "quantifier": "all launch files and all spawn failures", "why_tests_cant": "Ranges over all dependency graphs and failure points.", "anchors": ["horus_manager/src/commands/launch.rs: sort_by_dependencies, run_launch"]}
{"id": "C162", "title": "Launched nodes are restarted within limits and none outlives the launch", "statement": "Every process started by `horus launch` is known to it while it runs; a node that ends is restarted as its policy says, at most 10 times, after 100 ms doubling to 10 s; after Ctrl-C, an emergency stop, StopAll or the end of the loop no started process is running.", "quantifier": "all sequences of process exits, spawn failures, commands and signals", "why_tests_cant": "Ranges over all histories of exits and commands, and over processes that ignore signals.", "anchors": ["horus_manager/src/commands/launch.rs: run_launch (supervision loop, shutdown), should_restart_node"]}
{"id": "C163", "title": "Launch control does what it says", "statement": "StopNode stops a node, RestartNode restarts it once, StopAll and an engaged emergency stop end the launch promptly, and the session file shows for each node its own process.", "quantifier": "all sequences of commands, e-stop messages and exits", "why_tests_cant": "Ranges over all orders of commands and exits, including exits within the pass that handles the command.", "anchors": ["horus_manager/src/commands/launch.rs: run_launch (control topic, e-stop, session update)", "horus_types/src/diagnostics.rs: EmergencyStop"]}
{"id": "C164", "title": "'Did you mean' names the nearest candidate", "statement": "The suggestion in an error message is a candidate at the least edit distance from what was asked for, within the limit and different from it; one is given whenever such a candidate exists.", "quantifier": "all queries, candidate lists and limits", "why_tests_cant": "Ranges over all texts, including non-ASCII ones whose byte and character counts differ.", "anchors": ["horus_core/src/utils.rs: levenshtein_distance, suggest_similar", "horus_core/src/error.rs: uses of suggest_similar"]}
{"id": "C165", "title": "Retrying retries transient errors only, and within limits", "statement": "retry_transient calls the operation at most max_retries + 1 times, retries only after a transient error, returns the last call's result, and waits the exponential back-off, never longer than the maximum, in between.", "quantifier": "all operations (any outcome of each call) and all configurations", "why_tests_cant": "Ranges over all sequences of outcomes and all configurations.", "anchors": ["horus_core/src/error.rs: retry_transient, RetryConfig, HorusError::severity"]}
{"id": "C166", "title": "Throttled logging", "statement": "hlog_every! prints at most one line per interval and one whenever the interval has passed; hlog_once! prints exactly once per process.", "quantifier": "all clock readings and all interleavings of threads at one call site", "why_tests_cant": "Ranges over all interleavings and over clocks that are set back.", "anchors": ["horus_core/src/core/hlog.rs: hlog_every!, hlog_once!"]}
{"id": "C167", "title": "Text in fixed-size messages reads back", "statement": "A name, reason, component or message text put in a heartbeat, status, emergency stop, diagnostic value or time reference reads back as the longest part that fits, always valid text; log previews are cut between characters and never panic.", "quantifier": "all texts, all buffer sizes, all previous contents of the buffer", "why_tests_cant": "Ranges over all Unicode texts; the interesting ones have a character across the end of the buffer.", "anchors": ["horus_types/src/diagnostics.rs: Heartbeat, DiagnosticStatus, EmergencyStop, DiagnosticValue, DiagnosticReport", "horus_types/src/time.rs: TimeReference", "horus_types/src/generic.rs: truncate_on_char_boundary"]}
{"id": "C168", "title": "Generic messages carry any payload up to 4096 bytes", "statement": "GenericMessage gives back exactly the payload and metadata it was made with, refuses larger ones, survives serialization, and cannot be made to panic by what was received.", "quantifier": "all payloads, metadata texts, and serialized or raw inputs", "why_tests_cant": "Ranges over all payload lengths around both buffer limits and all malformed inputs.", "anchors": ["horus_types/src/generic.rs: GenericMessage"]}
{"id": "C169", "title": "Health messages agree with themselves", "statement": "A diagnostic report shows the first sixteen values added; a fault makes a safety status unsafe until cleared and clearing does not hide other causes; a heartbeat is fresh exactly while younger than the limit; a time reference corrects a time by exactly its offset.", "quantifier": "all sequences of values and states, all times and offsets", "why_tests_cant": "Ranges over all states and over the ends of the number ranges.", "anchors": ["horus_types/src/diagnostics.rs: DiagnosticReport, SafetyStatus, NodeHeartbeat", "horus_types/src/time.rs: TimeReference::correct_timestamp"]}
{"id": "C170", "title": "A rate limiter keeps the rate", "statement": "A loop that calls Rate::sleep once per turn never runs faster than the rate, catches up at most one period after a stall, does not drift when its work fits in the period, and actual_hz reports the rate at which it runs.", "quantifier": "all periods, all working times, all lateness of waking, any number of turns", "why_tests_cant": "Ranges over all timings and unboundedly many turns; drift and burst effects show only in long runs.", "anchors": ["horus_core/src/core/timer.rs: Rate::new, Rate::sleep, Rate::is_late, Rate::actual_hz"]}
{"id": "C171", "title": "An external driver runs once and is restarted within limits", "statement": "At most one process of an exec driver runs at a time and none after shutdown; a process that crashed is restarted on the next tick after the exponential wait of at most 30 s, at most max_retries times.", "quantifier": "all crash times, exit statuses, spawn failures and failures of the process query", "why_tests_cant": "Ranges over all interleavings of crashes, failing system calls and ticks.", "anchors": ["horus_core/src/drivers/exec_driver.rs: ExecDriver"]}
{"id": "C172", "title": "The hardware table is loaded as written", "statement": "hardware::load creates one node per entry, in order, of the type the entry names, with exactly the entry's parameters; simulated entries become stubs exactly when asked; any entry that cannot be loaded is an error; typed parameters are exact or an error.", "quantifier": "all manifest contents, environment variables and registries", "why_tests_cant": "Ranges over all TOML tables and all texts of the environment variables.", "anchors": ["horus_core/src/drivers/mod.rs: load_from, load_config_entries", "horus_core/src/drivers/params.rs: NodeParams, FromToml", "horus_py/src/drivers.rs: load_from"]}
{"id": "C173", "title": "Tools see every node's latest metrics", "statement": "A tool that reads the live registry sees every node of the scheduler once, with the numbers of its last tick.", "quantifier": "all earlier contents of the file, all sets of nodes and all sequences of ticks", "why_tests_cant": "Ranges over all names and numbers of nodes and all stale files; the layout must not overlap for any slot.", "anchors": ["horus_core/src/scheduling/registry.rs: SchedulerRegistry", "horus_core/src/scheduling/scheduler/mod.rs: registration and update_registry_slot", "horus_manager/src/discovery/nodes.rs: discover_nodes"]}
{"id": "C174", "title": "Telemetry exports every node without stalling the scheduler", "statement": "A snapshot holds the last value of every metric of every node; exporting never waits for the network; snapshots are posted in order, each at most once, with bounded memory, and are lost only if four are waiting.", "quantifier": "all sequences of recordings and exports and all speeds of the server", "why_tests_cant": "Ranges over all interleavings of the scheduler and the exporting thread.", "anchors": ["horus_core/src/scheduling/telemetry.rs: TelemetryManager", "horus_core/src/scheduling/scheduler/mod.rs: telemetry export"]}
{"id": "C175", "title": "Geometry helpers obey geometry", "statement": "Quaternion::from_euler and Pose3D::from_pose_2d give unit quaternions that turn by roll, pitch and yaw about the fixed axes; normalising gives length one in the same direction; distances obey the triangle inequality; a normalised angle lies in [-pi, pi] and points the same way.", "quantifier": "all angles, vectors, points and quaternions", "why_tests_cant": "Ranges over all real values; identities hold for every angle or are wrong somewhere.", "anchors": ["horus_library/messages/math.rs: Quaternion, Vector3, Point3, Pose2D, Pose3D, TransformStamped"]}
{"id": "C176", "title": "Tick counters and health tell what happened", "statement": "NodeMetrics counts every tick once, as a success or a failure, with the mean, shortest and longest duration of the successful ones; a node whose last ticks failed repeatedly is reported unhealthy, whatever executor runs it.", "quantifier": "all histories of ticks, durations and panics, all execution classes", "why_tests_cant": "Ranges over all histories of outcomes and durations.", "anchors": ["horus_core/src/core/node.rs: NodeInfo::record_tick, record_tick_failure", "horus_core/src/scheduling: rt_executor, compute_executor, async_executor, event_executor, scheduler tick loop"]}
{"id": "C177", "title": "A safing request is honoured", "statement": "A node for which the watchdog asks for the safe state enters it on the next pass of its executor, once, even if the node itself no longer ticks.", "quantifier": "all sets of nodes, states of the nodes and executors, and histories of watchdog verdicts", "why_tests_cant": "Depends on the state of all other nodes of the same executor at the moment of the request.", "anchors": ["horus_core/src/scheduling/primitives.rs: honor_safe_state_request", "horus_core/src/scheduling/compute_executor.rs, async_executor.rs, event_executor.rs, rt_executor.rs"]}
{"id": "C178", "title": "Profiling statistics are exact", "statement": "The profiler's average, standard deviation, minimum, maximum and counts are those of the durations it was given, and the failure rate is the share of ticks that failed.", "quantifier": "all sequences of durations and failures", "why_tests_cant": "One-pass formulas must agree with the definitions for every sequence.", "anchors": ["horus_core/src/scheduling/profiler.rs: NodeStats::update, record_failure"]}
{"id": "C179", "title": "Sandboxed plugins cannot use the network or gain privileges", "statement": "A plugin that was started through the sandbox can make no network or privileged system call, has inherited only its three standard streams, and does not start if the restrictions cannot be put in place.", "quantifier": "all system call numbers, architectures, kernels and inherited descriptors", "why_tests_cant": "Ranges over all system calls and all failures of the restricting calls.", "anchors": ["horus_manager/src/plugins/sandbox.rs: build_bpf_filter, apply, apply_long_lived"]}
{"id": "C180", "title": "horus clean removes only what is dead or asked for", "statement": "horus clean --shm removes exactly the namespaces whose session leader is gone, and with --force the caller's own; a live namespace of another process goes only with --all-namespaces; a dry run removes nothing; build files of a running build stay; only __pycache__ directories of the project are removed.", "quantifier": "all sets of namespaces, live processes, flags, caches, locks and directory trees", "why_tests_cant": "Ranges over all states of the machine and all directory trees.", "anchors": ["horus_manager/src/commands/clean.rs: run_clean", "horus_sys/src/shm/mod.rs: list_all_horus_namespaces", "horus_manager/src/build_dirs.rs: is_locked"]}
{"id": "C181", "title": "Hooks run around commands as configured", "statement": "A command starts exactly if every hook in front of it succeeded, all of them having run in order; its teardown hooks run whether it succeeded or failed, and its own error is the one reported.", "quantifier": "all lists of hooks, all outcomes of hooks and commands", "why_tests_cant": "Ranges over all lists of hooks and outcomes.", "anchors": ["horus_manager/src/hooks.rs: run_hooks", "horus_manager/src/main.rs: hook call sites"]}
{"id": "C182", "title": "Names and arguments reach programs as they are", "statement": "Arguments given to horus scripts reach the script's command one word each, unchanged; directory, program and identity names given to horus deploy are never taken for shell syntax, and the program starts where the files were copied.", "quantifier": "all texts: every character including quotes, spaces, dollars and newlines", "why_tests_cant": "Quoting is wrong exactly on the texts nobody tests.", "anchors": ["horus_manager/src/commands/scripts.rs: run", "horus_manager/src/commands/deploy.rs: shell_quote_preserving_tilde, sync_to_robot, run_on_robot"]}
{"id": "C183", "title": "horus deploy does what was asked, or says that it did not", "statement": "The command line wins over deploy.yaml and that over the defaults; nothing is copied without a successful build and a yes; completion is reported only if everything was built, copied and, if asked for, started; in a fleet one robot's failure does not stop the others and is reported.", "quantifier": "all settings, all outcomes of each step, all fleets", "why_tests_cant": "Ranges over all combinations of settings and outcomes of the steps.", "anchors": ["horus_manager/src/commands/deploy.rs: run_deploy, run_deploy_fleet, resolve_target"]}
{"id": "C184", "title": "horus deploy sends the program just built and no secrets", "statement": "The binary sent is the one the build just made for the robot's processor; files called or ending like secrets are never sent, at any depth, and everything else is.", "quantifier": "all states of the target directories, all file paths", "why_tests_cant": "Ranges over all directory trees and left-over build results.", "anchors": ["horus_manager/src/commands/deploy.rs: find_rust_binary, sync_to_robot excludes"]}
{"id": "C185", "title": "Commands find the workspace they are in", "statement": "A command run anywhere inside a workspace uses the nearest enclosing one; the list of known workspaces has one entry for each directory, the latest; nested workspaces are found; binaries of two projects never overwrite each other.", "quantifier": "all directory trees, depths and registration histories", "why_tests_cant": "Ranges over all directory trees and depths.", "anchors": ["horus_manager/src/workspace.rs: find_workspace_root, WorkspaceRegistry, scan_for_nested_workspaces", "horus_manager/src/build_dirs.rs: target_dir, binary_path"]}
{"id": "C186", "title": "horus cargo changes only what cargo changed", "statement": "After a cargo command run through horus, horus.toml has exactly the change cargo made to the project's dependencies: what cargo added, altered or removed is added, altered or removed, and everything else, of this and other languages, stays as it was.", "quantifier": "all dependency tables of horus.toml, all edits cargo makes to the generated Cargo.toml", "why_tests_cant": "Ranges over all manifests and all edits, and over what other processes write in between.", "anchors": ["horus_manager/src/native_sync.rs: sync_from_native, sync_dep_map, deps_equal", "horus_manager/src/commands/proxy.rs: run_with_sync", "horus_manager/src/cargo_gen.rs: generate", "horus_manager/src/commands/migrate.rs: extract_cargo_all_deps"]}
{"id": "C187", "title": "horus pip and conan record what was installed", "statement": "After horus pip install, horus.toml holds each requirement that was installed, with its name, extras, version and marker, so that the generated pyproject.toml asks for the same; after uninstall it is gone; nothing else changes.", "quantifier": "all argument lists and requirement texts, all manifests", "why_tests_cant": "Ranges over all command lines and requirement texts.", "anchors": ["horus_manager/src/commands/proxy.rs: run_pip_install, run_pip_uninstall, collect_pip_specs, parse_pip_spec, parse_conan_ref", "horus_manager/src/pyproject_gen.rs: format_pypi_dep"]}
{"id": "C188", "title": "A message from a machine with the other byte order is understood", "statement": "A fixed-size message sent by a machine with the other byte order arrives with every field at the value that was sent.", "quantifier": "all layouts of messages, all field values", "why_tests_cant": "Ranges over all layouts and values; tests use one layout and one machine.", "anchors": ["horus_net/src/encoding.rs: process_incoming_payload, byte_swap_words, infer_word_size", "horus_net/src/replicator.rs: process_incoming_message"]}
{"id": "C189", "title": "Real-time threads run on the cores asked for", "statement": "A real-time node pinned to a core, or a scheduler given a list of cores, runs its threads on the cores that were named, one each while there are enough; where the machine cannot provide a required core the scheduler says so.", "quantifier": "all machines' sets of allowed and isolated CPUs, all lists of cores and numbers of threads", "why_tests_cant": "Ranges over all machines; tests run on one.", "anchors": ["horus_core/src/scheduling/rt.rs: set_thread_affinity", "horus_sys/src/rt/mod.rs: pin_to_cores, parse_cpu_list", "horus_sys/src/rt/linux.rs: move_irqs_off_cpus", "horus_core/src/core/rt_config.rs: RtConfig::apply, get_rt_recommended_cpus", "horus_core/src/scheduling/rt_executor.rs: start_pool, rt_thread_main", "horus_core/src/scheduling/scheduler/mod.rs: cores, require_rt, apply_rt_optimizations"]}
{"id": "C190", "title": "Large messages are copied exactly", "statement": "Whatever its size and alignment, a message, image or point cloud written to or read from shared memory arrives byte for byte, nothing outside the destination is touched, and its bytes are ordered before its publication.", "quantifier": "all sizes, all source and destination addresses that do not overlap, machines with and without vector instructions", "why_tests_cant": "Ranges over all sizes and alignments; tests use a few on one machine.", "anchors": ["horus_core/src/memory/simd.rs: simd_copy_to_shm, simd_copy_from_shm", "horus_core/src/communication/topic/mod.rs: simd_aware_write, simd_aware_read", "horus_core/src/memory/mod.rs: copy_from"]}
{"id": "C191", "title": "A C++ action goal gets one result", "statement": "Every goal a C++ action server starts gets exactly one result, for that goal; a cancellation reaches the goal it names; goals that run are known to the server and none is run twice; a client's poll gives the result of its own goal; when the server is destroyed all goals are told to stop.", "quantifier": "all interleavings of clients, the server's process calls, goal threads and cancellations", "why_tests_cant": "Ranges over all interleavings; tests take a few.", "anchors": ["horus_cpp/src/action_ffi.rs: action_server_process, action_client_send_goal, action_client_cancel, action_client_poll_result, FfiActionGoalHandle::push_completion, Drop for FfiActionServer"]}
{"id": "C192", "title": "C++ service calls get their own answer", "statement": "A C++ service client gets the answer the server's handler gave to its own request, whole, or an error; a handler's failure is reported as a failure.", "quantifier": "all sets of clients, all orders of requests and answers, all sizes of text", "why_tests_cant": "Ranges over all interleavings of clients; tests use one client.", "anchors": ["horus_cpp/src/service_ffi.rs: next_request_id, service_client_new, service_client_call, service_server_set_handler, service_server_process", "horus_cpp/src/types_ffi.rs: JsonWireMessage", "horus_cpp/src/c_api.rs: horus_service_client_call, write_cstr"]}
{"id": "C193", "title": "A C++ node gets the schedule it asked for", "statement": "A node built from C++ is scheduled exactly as the same builder calls would schedule a Rust node, whatever their order, and runs the callbacks it was given and no other node's; a node whose callback failed is not run again.", "quantifier": "all sequences of builder calls with all values, all sequences of nodes built, all histories of ticks", "why_tests_cant": "Ranges over all sequences of calls; tests take a few.", "anchors": ["horus_cpp/src/node_ffi.rs: node_builder_build, CppNode", "horus_cpp/src/types_ffi.rs: NodeConfig", "horus_cpp/include/horus/impl/scheduler_impl.hpp: NodeBuilder::build"]}
{"id": "C194", "title": "A Python node gets the schedule it asked for", "statement": "A Python node is scheduled exactly as the same Rust builder calls would schedule it; a combination of options that contradicts itself is refused with an error, and no other is.", "quantifier": "all combinations of the options of a Python node, with all values", "why_tests_cant": "Ranges over all combinations of options; tests take a few.", "anchors": ["horus_py/horus/__init__.py: Node.__init__, Scheduler.add, Scheduler._add_node", "horus_py/src/scheduler.rs: PyNodeBuilder, add_node_internal, parse_miss_policy"]}
{"id": "C195", "title": "A Python callback runs once and its failure reaches the failure policy", "statement": "In each tick a Python node's callback runs once; an exception it raises reaches the node's error handler and its failure policy; an interrupt stops the scheduler and no callback runs after it.", "quantifier": "all callbacks (arbitrary functions of the interpreter state), all signatures, all handlers", "why_tests_cant": "Ranges over all callbacks; tests take a few.", "anchors": ["horus_py/src/scheduler.rs: PyNodeAdapter::init, tick, shutdown", "horus_py/horus/__init__.py: Node._run_tick_with_error_handling"]}
{"id": "C196", "title": "The Python scheduler keeps its nodes, stops, and tells the truth about itself", "statement": "Nodes added to a Python scheduler stay in it through runs, errors and calls from other threads; a stop is never forgotten; a call made while it runs cannot enter it a second time; its queries describe it.", "quantifier": "all sequences of operations, including operations made by callbacks during a run and by other threads", "why_tests_cant": "Ranges over all nested histories of operations; tests take a few.", "anchors": ["horus_py/src/scheduler.rs: with_inner_run, stop, has_node, get_node_count, is_running", "horus_py/horus/__init__.py: Scheduler.run"]}
{"id": "C197", "title": "A Python node receives every message once, in order", "statement": "Whatever mix of has_msg, recv and recv_all a Python node calls, it receives each message of the topic once and in order, and has_msg answers whether a message is there.", "quantifier": "all sequences of arrivals and calls", "why_tests_cant": "Ranges over all sequences of calls; tests take a few.", "anchors": ["horus_py/horus/__init__.py: Node.has_msg, recv, recv_all", "horus_py/src/topic.rs: recv"]}
{"id": "C198", "title": "Python values on untyped topics arrive as sent", "statement": "A value sent on an untyped Python topic arrives equal to what was sent, or the send raises an error.", "quantifier": "all nested Python values", "why_tests_cant": "Ranges over all nested values; tests take a few.", "anchors": ["horus_py/src/topic.rs: send, recv (TopicType::Generic)"]}
{"id": "C199", "title": "Waiting for a pool slot misses no return", "statement": "A call that waits for a free slot of a tensor pool is woken by every slot put back while it waits, gets a slot when one is free, and answers \"timeout\" only after its deadline and after an attempt that found the pool empty; no slot is lost; nothing waits for ever for the pool's lock.", "quantifier": "all interleavings of any number of threads allocating and returning, all moments at which deadlines pass, all spurious wakeups", "why_tests_cant": "A lost wakeup needs one particular interleaving of three threads; tests do not meet it.", "anchors": ["horus_core/src/memory/tensor_pool.rs: alloc_with_timeout, return_slot"]}
{"id": "C200", "title": "The network loop handles every datagram and does not starve its timer", "statement": "Each datagram that arrives is handled once and in order before the network thread goes back to sleep; the periodic pass that sends heartbeats, watches peers and repeats emergency stops runs soon after it is due, however many datagrams arrive.", "quantifier": "all interleavings of arrivals, timer expiries, notifications and steps of the loop, all orders in which the kernel reports sources", "why_tests_cant": "Ranges over all interleavings and unbounded floods of datagrams.", "anchors": ["horus_net/src/replicator.rs: run, handle_incoming", "horus_net/src/event_loop/epoll.rs: wait, epoll_add"]}
{"id": "C201", "title": "The network layer knows which topics a process has open and publishes", "statement": "Once networking has started, the registry the import guard consults names every topic on which the process has an open handle, marks as published every topic that an open handle has published, and names no topic that is not open — so no remote peer can write to a topic this process publishes.", "quantifier": "all histories of handles opened, cloned, used and dropped, before and after networking starts, all interleavings with its start", "why_tests_cant": "Ranges over all histories; tests open and close a handle or two.", "anchors": ["horus_core/src/communication/topic/mod.rs: set_topic_lifecycle_hook, notify_topic_lifecycle, Clone for RingTopic, Drop for RingTopic", "horus_net/src/lib.rs: start_replicator", "horus_net/src/registry.rs: register, unregister"]}
{"id": "C202", "title": "Comparing two recorded sessions tells the truth", "statement": "`horus record diff` says \"No differences found!\" exactly when every node recorded in both sessions wrote the same outputs in both over the ticks they share, counts every difference up to the limit, compares each node with itself, and finds no difference between a session and itself.", "quantifier": "all sessions, file names, recordings and limits", "why_tests_cant": "Ranges over all sets of recordings and limits; the tests compare sessions that do not exist.", "anchors": ["horus_manager/src/commands/record.rs: run_diff", "horus_core/src/scheduling/record_replay.rs: diff_recordings, node_path"]}
{"id": "C203", "title": "Cleaning recordings deletes only what was asked", "statement": "`horus record clean` deletes nothing on a dry run or without consent; with an age limit it deletes only sessions older than the limit and never a session the user named; without one it deletes all; `horus record delete` removes the named session and no other.", "quantifier": "all sets of sessions, ages, clocks, limits, answers", "why_tests_cant": "Ranges over all sets of sessions and ages; a wrong boundary deletes data that cannot be recovered.", "anchors": ["horus_manager/src/commands/record.rs: run_clean, run_delete", "horus_core/src/scheduling/record_replay.rs: list_sessions, delete_session, RecordingConfig::default"]}
{"id": "C204", "title": "Exported recordings can be read back", "statement": "A CSV export holds exactly the recorded rows, whatever characters node names and topics contain; a value written by the exporter and given back as a replay override is the same bytes.", "quantifier": "all rows, names, topics and byte strings", "why_tests_cant": "Ranges over all texts and byte strings, including separators inside names.", "anchors": ["horus_manager/src/commands/record.rs: run_export, parse_hex_string, run_replay"]}
{"id": "C205", "title": "A transform recording holds what arrived", "statement": "A file made by `horus tf record`, read back, gives every dynamic transform that arrived with its time, in order, and each static frame; what was written before a failure or a crash can be read.", "quantifier": "all sequences of messages, all failing writes, all crash points", "why_tests_cant": "Ranges over all histories, crash points and partial writes.", "anchors": ["horus_manager/src/commands/tf.rs: record_transforms, read_tfr_file"]}
{"id": "C206", "title": "Comparing transform recordings misses no frame", "statement": "`horus tf diff` says \"All frames match\" exactly when both recordings have the same frames and every frame's pose differs by no more than the thresholds; a frame in only one of them is reported.", "quantifier": "all pairs of recordings, all thresholds", "why_tests_cant": "Ranges over all orders in which frames can be recorded.", "anchors": ["horus_manager/src/commands/tf.rs: diff_transforms, build_tf_from_entries"]}
{"id": "C207", "title": "Message files are split into the right tokens", "statement": "The `.hmsg` reader accepts exactly the texts of its lexical grammar (comments, doc comments, identifiers, numbers with underscores below 2^64, one-line strings, punctuation), gives exactly the grammar's tokens, each text has only one reading, and every token and error message names the line and column where it stands.", "quantifier": "all texts", "why_tests_cant": "Ranges over all texts and all places at which a token may end.", "anchors": ["horus_manager/src/msgspec/parse.rs: Lexer::tokenize, bump, peek_at"]}
{"id": "C208", "title": "The real-time readiness report tells the truth", "statement": "The report's minimum, maximum, mean and percentiles are those of the measured intervals; a machine graded \"production\" has the capabilities the grade names and low measured jitter; \"no issues\" is said exactly of such machines.", "quantifier": "all measured tick times and all combinations of capabilities", "why_tests_cant": "Ranges over all measurements; the test only prints a report.", "anchors": ["horus_core/src/scheduling/rt_report.rs: RtReport::generate, measure_jitter"]}
{"id": "C209", "title": "A node's timing statistics are right", "statement": "Tick, miss and violation counts are exact, the worst and last times are those recorded, the average lies between the shortest and longest time, jitter between zero and their difference, and a constant load is reported as it is.", "quantifier": "all histories of executions, misses and violations", "why_tests_cant": "Ranges over all histories; averages are recursive.", "anchors": ["horus_core/src/core/rt_node.rs: RtStats"]}
{"id": "C210", "title": "Safety topics are sent with the most care", "statement": "A message on a topic whose name mentions estop, emergency or safety, in any case, is sent three times, past the send limit and again until acknowledged, whatever its size; no other topic is; large messages are bulk; motor commands of nodes with a budget are sent twice.", "quantifier": "all topic names, sizes and configurations", "why_tests_cant": "Ranges over all names and sizes.", "anchors": ["horus_net/src/priority.rs: Priority, Reliability", "horus_net/src/replicator.rs: handle_export", "horus_net/src/reliability.rs: copies_for"]}
{"id": "C211", "title": "A package comes from where it belongs", "statement": "`horus add` and the build take a well-known package from the site that has it, one known on both from the site of the project's language, a declared source is respected, spelling does not matter, and wrong declarations are reported.", "quantifier": "all names, languages, declarations and answers of the sites", "why_tests_cant": "Ranges over all names; a wrong answer installs a stranger's code.", "anchors": ["horus_manager/src/source_resolver.rs: PackageSourceResolver, validate_deps, KNOWN_CRATES, KNOWN_PYPI", "horus_manager/src/cargo_gen.rs: write_deps_section", "horus_manager/src/pyproject_gen.rs: collect_python_deps"]}
{"id": "C212", "title": "A failing program makes the command fail", "statement": "`horus fmt`, `lint` and `doc` succeed exactly if every tool was started and succeeded, and otherwise give the worst exit code; `horus run` with several files fails if one of its programs does; every line of text the programs write is shown, labelled and in order.", "quantifier": "all numbers of programs, exit codes, signals and outputs", "why_tests_cant": "Ranges over all combinations of outcomes.", "anchors": ["horus_manager/src/run_with_prefix.rs: run_prefixed, worst_exit_code, exit_code_of, all_succeeded", "horus_manager/src/commands/run/mod.rs: execute_multiple_files"]}
{"id": "C213", "title": "horus run runs what it is told and skips what is ignored", "statement": "Ignore patterns leave out exactly the paths they match and everything inside an ignored directory; without a file name, the one main file is found whatever the order of the listing; wildcards give the matching files that are not ignored; a file named directly is run.", "quantifier": "all patterns, paths and directory contents", "why_tests_cant": "Ranges over all pattern and path texts.", "anchors": ["horus_manager/src/commands/run/features.rs: IgnorePatterns, glob_match", "horus_manager/src/commands/run/mod.rs: resolve_execution_target, resolve_glob_pattern, auto_detect_main_file"]}
{"id": "C214", "title": "A misspelt key in horus.toml is reported", "statement": "Every key of the manifest that nothing reads is reported, none that is read; the line is where the key stands; a suggested key is one that exists and no known key is nearer.", "quantifier": "all manifests", "why_tests_cant": "Ranges over all texts and tables.", "anchors": ["horus_manager/src/manifest_lint.rs: find_unknown_keys, suggest, levenshtein, locate_line", "horus_manager/src/manifest.rs: HorusManifest"]}
{"id": "C215", "title": "horus tf shows the frames that were sent", "statement": "For each frame the last transform and the number received are shown; every frame is linked to its parent whatever order the reader meets them in; the printed tree has every frame under a root.", "quantifier": "all message histories, trees and listing orders", "why_tests_cant": "Ranges over all histories and hash orders.", "anchors": ["horus_manager/src/commands/tf.rs: TransformFrameReader, print_frame_tree"]}
{"id": "C216", "title": "A lost link is acted on although discovery runs beside it", "statement": "When a peer falls silent the configured action is taken at the first timer run after the allowed number of missed heartbeats; it is taken for no peer that is heard; the configured action is the one named.", "quantifier": "all configurations, all sequences of announcements, heartbeats and timer runs", "why_tests_cant": "Ranges over all interleavings of the two supervisions and all settings.", "anchors": ["horus_net/src/replicator.rs: handle_timer", "horus_net/src/heartbeat.rs: HeartbeatManager::tick, LinkLostAction::from_str", "horus_net/src/peer.rs: PeerTable::check_liveness"]}
{"id": "C217", "title": "A C++ tensor or image owns its memory until it gives it up", "statement": "No two tensors or images in use share memory; an image is in use for as long as its object lives; giving a tensor back twice changes nothing; when all objects are gone the pool is empty again.", "quantifier": "all sequences of allocations, moves, releases and destructions, all pool sizes", "why_tests_cant": "Ranges over all histories of C++ objects.", "anchors": ["horus_cpp/include/horus/pool.hpp: TensorPool, Tensor, Image", "horus_cpp/src/c_api.rs: horus_tensor_pool_new .. horus_image_data_size", "horus_cpp/src/pool_ffi.rs", "horus_core/src/memory/tensor_pool.rs: alloc, release, data_ptr, stats"]}
{"id": "C218", "title": "A message struct means the same in C++ and in Rust", "statement": "What one language stores in a field of a message the other reads in the field of the same name, for all values; receiving a message changes no byte outside the receiver's object.", "quantifier": "all message types of the C API, all field values and memory contents", "why_tests_cant": "Ranges over all values of all types; a test compares sizes and offsets only.", "anchors": ["horus_cpp/src/layout_contract.rs: layout_contract_types", "horus_cpp/include/horus/layout_contract.hpp", "horus_cpp/include/horus/msg/*.hpp", "horus_types/src/math.rs, diagnostics.rs, time.rs", "horus_cpp/src/c_api.rs: impl_pod_topic_c_api"]}
{"id": "C219", "title": "Generated message bindings do not clash and are valid", "statement": "The functions, classes, constants and members `horus msg gen` writes for a package have different names, in one package and between packages in one program, and every accepted package gives code that is valid in the languages it is written in.", "quantifier": "all packages of message definitions, all package names", "why_tests_cant": "Ranges over all names and all definitions.", "anchors": ["horus_manager/src/msgspec/emit_ffi.rs: snake, symbol, emit_rust, emit_header", "horus_manager/src/msgspec/emit_cpp.rs: emit", "horus_manager/src/msgspec/emit_rust.rs: emit", "horus_manager/src/msgspec/canonical.rs", "horus_manager/src/commands/msg.rs: generate_messages"]}
{"id": "C220", "title": "A node that promised not to allocate is stopped when it does", "statement": "A tick of a node declared `.no_alloc()` that allocates after its first tick is stopped and reported with the node's name; a tick that does not allocate is never stopped; nodes without the declaration and the scheduler's own work are never affected.", "quantifier": "all nodes, all sequences of allocations, calls and turns", "why_tests_cant": "Ranges over every behaviour of the node's code and every history of turns.", "anchors": ["horus_core/src/memory/rt_allocator.rs", "horus_core/src/scheduling/rt_executor.rs: tick", "horus_core/src/scheduling/scheduler/mod.rs: tick nodes", "horus_core/src/scheduling/primitives.rs"]}
{"id": "C221", "title": "Device names survive text and DLPack", "statement": "A device written as text and read back is the same device; so is one passed through DLPack; unreadable text is refused.", "quantifier": "all devices, all texts", "why_tests_cant": "Ranges over all 32-bit indices and all strings.", "anchors": ["horus_core/src/types/device.rs: Device"]}
{"id": "C222", "title": "Observers see the last message and counters count messages", "statement": "A tool that looks at a topic from outside sees the last message sent, notices every new message and reports one per message; `metrics()` counts the messages sent and received.", "quantifier": "all histories of sends of every kind, all ring sizes", "why_tests_cant": "Ranges over histories of sends that succeed, drop, try and block.", "anchors": ["horus_core/src/communication/topic/mod.rs: send, try_send, send_blocking, recv, metrics", "horus_core/src/communication/topic/header.rs: read_latest_slot_bytes, messages_total"]}
{"id": "C223", "title": "The features built are those asked for", "statement": "`horus run` switches on exactly the features of the requested drivers and capabilities, each once; the environment replaces horus.toml; a disabled driver stays off; a group stands for its members.", "quantifier": "all manifests, all environments, all registries", "why_tests_cant": "Ranges over all configurations and all registry answers.", "anchors": ["horus_manager/src/commands/run/features.rs"]}
{"id": "C224", "title": "The test doubles behave as configured", "statement": "A mock topic delivers what it accepted in order, fails exactly the calls it was told to or cannot hold, keeps within its capacity and counts correctly; a test node told to panic on a tick panics on that tick.", "quantifier": "all configurations, all sequences of calls", "why_tests_cant": "Ranges over all call histories.", "anchors": ["horus_core/src/testing/mock_topic.rs: MockTopic", "horus_core/src/testing/test_node.rs: TestNode::tick"]}
{"id": "C225", "title": "Only types safe to copy are copied as bytes", "statement": "A message type that contains something owned is never copied as raw bytes, plain numeric types are, and every byte pattern that can arrive is a value of the type.", "quantifier": "all types built from numbers, flags, enums, owned values, references, arrays and structs", "why_tests_cant": "Ranges over all types, which tests can only sample.", "anchors": ["horus_core/src/communication/pod.rs: is_pod"]}
{"id": "C226", "title": "A Python topic is connected to what its name says", "statement": "A Python `Topic` is connected under the name it reports, two topics meet exactly if their names are equal, the class given decides the type, the capacity is the one asked for, and a topic that says it is on the network is.", "quantifier": "all classes, names, endpoints and capacities", "why_tests_cant": "Ranges over all names and all 64-bit capacities.", "anchors": ["horus_py/src/topic.rs: PyTopic::new, create_topic, create_pool_topic", "horus_py/horus/__init__.py: Node._setup_topics, _detect_topic_type, _parse_topics", "horus_py/src/messages.rs: __topic_name__"]}
{"id": "C227", "title": "Arrays handed to numpy stay inside their object", "statement": "Every element of a numpy array made from a tensor, image, depth image or point cloud lies inside that object's bytes in the pool, also when the descriptor came from another process; squeezing and unsqueezing keep the elements.", "quantifier": "all descriptors, all indices, all pools", "why_tests_cant": "Ranges over all 64-bit descriptors that can arrive from another process.", "anchors": ["horus_py/src/tensor.rs: __array_interface__, squeeze, unsqueeze", "horus_py/src/image.rs: __array_interface__", "horus_py/src/depth_image.rs: __array_interface__", "horus_py/src/pointcloud.rs: __array_interface__", "horus_core/src/types/image_descriptor.rs: height, width, channels"]}
{"id": "C228", "title": "numpy arrays come back as they were given", "statement": "A numpy array turned into a tensor, point cloud, depth image or image and back is the same array, with the same shape, element type and elements; an array that cannot be held is refused.", "quantifier": "all arrays of all shapes, element types, byte orders and contents", "why_tests_cant": "Ranges over all shapes, element types and contents.", "anchors": ["horus_py/src/tensor.rs: from_numpy, numpy", "horus_py/src/image.rs: from_numpy, to_numpy, infer_encoding", "horus_py/src/depth_image.rs: from_numpy", "horus_py/src/pointcloud.rs: from_numpy", "horus_py/src/tensor_convert.rs", "horus_core/src/types/dtype.rs: TensorDtype", "horus_core/src/types/image_encoding.rs: ImageEncoding"]}
{"id": "C229", "title": "A published package holds the project and no secrets", "statement": "What `horus publish` uploads holds every file of the project that is not excluded, and no file whose name marks it as a secret, a build product or ignored; path patches are removed from the uploaded manifest and nothing else is.", "quantifier": "all project trees, ignore files and manifests", "why_tests_cant": "Ranges over all directory trees and all texts of the ignore file and manifest.", "anchors": ["horus_manager/src/registry/publish.rs: strip_cargo_patch_sections, should_exclude, load_horusignore, publish"]}
{"id": "C230", "title": "The parameter commands do what they say and nothing else", "statement": "After `horus param set`, `delete`, `reset` or `load`, a later `get` answers what the command said; other parameters keep their values, also across environments, crashes and simultaneous commands; a value's text means the same on the command line and in a variable.", "quantifier": "all parameter files, environments, keys, values, crash points and pairs of commands", "why_tests_cant": "Ranges over all file contents and environments of both commands, all crash points and interleavings.", "anchors": ["horus_manager/src/commands/param.rs: get_param, set_param, delete_param, reset_params, load_params, save_params", "horus_core/src/params.rs: new, save_to_disk, load_from_disk, parse_env_value"]}
{"id": "C231", "title": "`horus run` installs what a program imports, in the version it asks for", "statement": "A program's import lines, read by `horus run`, ask for exactly the packages they name outside Python's own library; a requirement's text is read as its name and constraint; a project is given files that satisfy its requirement.", "quantifier": "all import lines, requirement texts and cache states", "why_tests_cant": "Ranges over all texts and all histories of the shared cache.", "anchors": ["horus_manager/src/commands/run/deps.rs: parse_all_python_imports, keep_package, is_stdlib_package, parse_rust_import, PipPackage", "horus_manager/src/commands/run/install.rs: install_pip_packages"]}
{"id": "C232", "title": "Cleaning the cache removes only what nobody uses", "statement": "`horus cache clean` removes exactly the cached packages that no workspace on the machine uses, says truly what it removed, and removes nothing in a dry run.", "quantifier": "all registries of workspaces, package directories, links and caches", "why_tests_cant": "Ranges over all sets of workspaces, whether registered or readable, and all cache contents.", "anchors": ["horus_manager/src/commands/cache.rs: run_clean", "horus_manager/src/workspace.rs: WorkspaceRegistry::load"]}
{"id": "C233", "title": "The sensors of a robot description are found", "statement": "The sensors of a robot description are exactly those its Gazebo blocks hold, each with its name, type and link; a driver key is warned about exactly if no sensor has its name.", "quantifier": "all robot descriptions and sets of driver keys", "why_tests_cant": "Ranges over all texts: any number of blocks, sensors and nested elements.", "anchors": ["horus_manager/src/urdf.rs: extract_sensors_from_str, extract_attr, validate_driver_keys"]}
{"id": "C234", "title": "`horus log` shows the newest matching entries", "statement": "`horus log` shows the newest entries that match the level, node and age asked for, oldest first, as many as asked for; following shows each new entry once; clearing clears them; records of the `log` facade arrive from the level asked for.", "quantifier": "all log contents, zones, moments, filters, texts and schedules of polls", "why_tests_cant": "Ranges over all logs, clocks, zones and interleavings of a poll with writers.", "anchors": ["horus_manager/src/commands/log.rs: view_logs, parse_since, parse_entry_time, follow_logs, clear_logs", "horus_core/src/core/log_bridge.rs: init_log_bridge, HorusLogBridge"]}
{"id": "C235", "title": "The API comparison reports every breaking change", "statement": "Comparing the project's documented API with a saved one fails when a public symbol was removed or changed incompatibly, shows nothing for an unchanged API, and says which changes are breaking.", "quantifier": "all pairs of documented APIs: files, symbols, fields, variants, methods and type texts", "why_tests_cant": "Ranges over all pairs of APIs and all texts of names and types.", "anchors": ["horus_manager/src/commands/doc_extract_diff.rs: symbol_signature, build_symbol_map, compute_diff, detect_breaking_signature_change, extract_brace_contents", "horus_manager/src/commands/doc_extract.rs: 852-862"]}
{"id": "C236", "title": "`horus migrate` loses no dependency and no file", "statement": "Migrating brings every dependency of `Cargo.toml`, `pyproject.toml` and `CMakeLists.txt` into `horus.toml`, leaves the others there alone, and, wherever it is interrupted, loses no file; a dry run changes nothing.", "quantifier": "all projects, files, requirement texts and points of interruption", "why_tests_cant": "Ranges over all projects and all crash points.", "anchors": ["horus_manager/src/commands/migrate.rs: run_migrate, extract_cargo_deps, extract_pyproject_deps, parse_pep_dep, extract_cmake_deps, parse_fetch_content_block"]}
{"id": "C237", "title": "Shell integration leaves the user's start files intact", "statement": "Installing the shell integration only adds lines to the shell's start file, once; uninstalling takes exactly these out again.", "quantifier": "all contents of a start file, and interruptions", "why_tests_cant": "Ranges over all file contents and crash points.", "anchors": ["horus_manager/src/commands/env.rs: run_env_init, add_source_line_if_missing, run_env_uninstall, remove_source_lines"]}
{"id": "C238", "title": "`horus run` runs what the current sources give", "statement": "The program `horus run` starts is the one that the current state of the named file gives, with the user's arguments, whatever earlier builds left on the disk and wherever the target directory is.", "quantifier": "all projects, files, target directories and earlier builds", "why_tests_cant": "Ranges over all histories of builds and all directory layouts.", "anchors": ["horus_manager/src/commands/run/run_rust.rs: execute_with_scheduler, build_rust_files_batch, execute_from_cargo_toml, get_project_name, ExecutableInfo::create_command", "horus_manager/src/commands/run/mod.rs: execute_multiple_files, execute_from_manifest", "horus_manager/src/build_dirs.rs: target_dir, binary_path", "horus_manager/src/cargo_gen.rs: generate, write_bin_entry, pathdiff, sanitize_cargo_name"]}
{"id": "C239", "title": "An error given context still says what happened and is treated alike", "statement": "The text of an error that was given context has every message and the error's own text in it, each once; and the error is tried again, or stops the node, as it would be without context.", "quantifier": "all errors, texts and numbers of levels", "why_tests_cant": "Ranges over all texts and all depths of nesting.", "anchors": ["horus_core/src/error.rs: fmt_contextual, strip_error_label, HorusContext, HorusError::severity", "horus_core/src/services/types.rs: From<ServiceError> for HorusError", "horus_core/src/actions/types.rs: From<ActionError> for HorusError"]}
{"id": "C240", "title": "What a host replicates follows what its peers announce", "statement": "A topic is sent to the network while this host publishes it and a live peer subscribes to it with the same type, and received while this host subscribes to it and a live peer publishes it; it stops when no live peer shares it, a message is written to the topic it was sent on, and no host sends back what it received.", "quantifier": "all registries, sets and orders of live peers, histories of updates, topic names and numbers of exchanges", "why_tests_cant": "Ranges over all histories of announcements, all peer orders and unbounded exchanges.", "anchors": ["horus_net/src/replicator.rs: update_matches, handle_export, topic_name_by_hash, find_writer_by_hash, process_incoming_message", "horus_net/src/peer.rs: subscribers_of", "horus_net/src/shm_reader.rs: try_read_latest"]}
{"id": "C241", "title": "Processes that attach to a tensor pool agree on where its tensors are", "statement": "Whatever is in a pool file, opening it either fails or gives a layout whose slots and data lie inside the file without overlapping; and two processes attached to one pool resolve a tensor to the same bytes.", "quantifier": "all pool files, configurations and tensor descriptors", "why_tests_cant": "Ranges over all header contents and all pairs of configurations.", "anchors": ["horus_core/src/memory/tensor_pool.rs: TensorPool::new, open, initialize, validate_fields, align_up, slot, data_ptr, pop_and_claim"]}
{"id": "C242", "title": "What introspection shows about a running node is true", "statement": "While a scheduler runs, the tick count shown for a node never goes down and equals the node's own while its counter is intact; a counter that was reset is announced once and never shown as healthy; every running node is refreshed about once a second; and the record shows the node's health, settings, start time and errors.", "quantifier": "all histories of refreshes, rosters, node counters, registry contents and clock readings", "why_tests_cant": "Ranges over all interleavings of refreshes with counter resets and node stops.", "anchors": ["horus_core/src/scheduling/scheduler/mod.rs: Scheduler::advance_tick", "horus_core/src/core/presence.rs: NodePresence::new, derive_actions_from_topics, derive_services_from_topics", "horus_core/src/core/node.rs: NodeMetrics::calculate_health"]}
{"id": "C243", "title": "Processes can share one log buffer whatever size each was given", "statement": "Whatever the environment says, a log buffer opens with a usable size; no process's opening of it invalidates another's; and each process reads the entries the others wrote, in order, as far as the ring still holds them.", "quantifier": "all environment values, file lengths, schedules of overlapping opens, and sequences of pushes by several processes", "why_tests_cant": "Ranges over all interleavings of opens and all mixes of capacities.", "anchors": ["horus_core/src/core/log_buffer.rs: max_log_entries, new_error_buffer, new_remote_buffer, open_at_with_capacity, push, get_since"]}
{"id": "C244", "title": "A text handed to a C caller stays inside its buffer and is what was asked for", "statement": "Whatever the text and buffer, a C call that hands out a text writes nothing outside the buffer, leaves a zero-terminated string holding the text or as much of its beginning as fits, and returns a number from which the caller can tell whether it has all of it.", "quantifier": "all memories, buffer addresses and sizes, and texts", "why_tests_cant": "Ranges over all texts and buffer sizes, including zero and beyond 2^31.", "anchors": ["horus_cpp/src/c_api.rs: horus_scheduler_node_name_at, horus_scheduler_get_name, horus_params_get_string, horus_service_client_call, write_cstr"]}
{"id": "C245", "title": "Typed parameters set through C are read back through C", "statement": "A value accepted by one of the typed set calls is read back exactly by the matching get call, no other parameter changes, a refused set changes nothing, and \"not found\" is answered exactly for parameters that are not there.", "quantifier": "all stores, names, values and acceptance rules", "why_tests_cant": "Ranges over all values of four kinds and all histories of the store.", "anchors": ["horus_cpp/src/c_api.rs: horus_params_get_f64, horus_params_set_f64, horus_params_get_i64, horus_params_set_i64, horus_params_get_bool, horus_params_get_string, horus_params_has", "horus_cpp/src/params_ffi.rs", "horus_core/src/params.rs: get, set"]}
{"id": "C246", "title": "A log line written from C++ is shown by `horus log` like any other", "statement": "A line logged through the C interface is recorded with the level, node and message given, and `horus log` shows it among the others by the time it was written, subject to the same filters.", "quantifier": "all levels, names, messages, other lines, filters and counts", "why_tests_cant": "Ranges over all contents of the log and all filter settings.", "anchors": ["horus_cpp/src/c_api.rs: horus_log, horus_blackbox_record", "horus_core/src/core/log_buffer.rs: publish_log, push", "horus_manager/src/commands/log.rs: run_logs, parse_entry_time"]}
{"id": "C247", "title": "The node! macro makes the node that was written", "statement": "A node! definition is accepted exactly when its sections are known, not repeated and include tick, in any order; the node made from it has the fields, topics and callbacks written, is asked for everything the scheduler asks of nodes, and gets a name of its own.", "quantifier": "all lists of sections, struct names and type paths", "why_tests_cant": "Ranges over all definitions and orders, at compile time.", "anchors": ["horus_macros/src/node.rs: NodeDef::parse, impl_node_macro, to_snake_case", "horus_core/src/core/node.rs: Node"]}
{"id": "C248", "title": "A service call from the command line gets the answer to its own request, executed at most once", "statement": "A caller that is given an answer is given what the handler answered for exactly its payload; no request is executed more than once or without having been asked for, by any number of servers; one that was given up before a server took it never runs; the caller's files are removed; a complete request is answered.", "quantifier": "all interleavings of file operations of any number of callers and servers, all crash points, all payloads and answers", "why_tests_cant": "Ranges over all schedules of separate processes sharing a directory and all crash points.", "anchors": ["horus_manager/src/commands/service.rs: call_service", "horus_core/src/services/server.rs: run_server_loop", "horus_sys/src/shm/mod.rs: write_shm_file_new"]}
{"id": "C249", "title": "A goal sent from the command line is handled, once", "statement": "Only goals that were sent, whole and of the action's type, are handled, by each server at most once; one that is there when a server looks is handled; every goal the sender was told is sent is handled unless one of five named things happened to it.", "quantifier": "all interleavings of file operations of any number of senders and servers, all crash points", "why_tests_cant": "Ranges over all schedules of separate processes and all crash points.", "anchors": ["horus_manager/src/commands/action.rs: send_goal", "horus_core/src/actions/server.rs: tick"]}
{"id": "C250", "title": "Names typed at the command line reach the service they name and no file outside the gateway", "statement": "A name that is a running service means it, a type name means the service the macro names after it, and the request file is in the gateway's directory or the call is refused.", "quantifier": "all names, sets of running services and directories", "why_tests_cant": "Ranges over all names and all sets of services.", "anchors": ["horus_manager/src/commands/service.rs: resolve_service_name, camel_to_snake, call_service", "horus_manager/src/commands/action.rs: send_goal", "horus_core/src/services/macros.rs: service!"]}
{"id": "C251", "title": "Nothing a package's metadata says is read as an option by a package manager", "statement": "Whatever system packages and Python requirements a registry package lists, every option of every program run for it is one written in the source; requirements name no place on the network and no file; without consent nothing is installed on the system; what is installed is what is listed and missing; every Debian name is accepted.", "quantifier": "all lists of names and requirements, package managers, installed packages and answers", "why_tests_cant": "Ranges over all texts an author can put into the metadata and all states of the machine.", "anchors": ["horus_manager/src/registry/helpers.rs: is_safe_system_package_name, handle_system_dependencies", "horus_manager/src/registry/install.rs: is_safe_python_requirement, apply_driver_requirements", "horus_manager/src/commands/run/run_cpp.rs: ensure_system_deps"]}
{"id": "C252", "title": "Installing a driver adds what it needs to Cargo.toml and changes nothing else", "statement": "The old features stay, exactly the new ones are added, the version and the other keys are kept, every other entry is as it was and doing it again changes nothing; a crate already required keeps its version and exactly the missing crates are added with the version of their first mention.", "quantifier": "all dependency sections, feature lists and crate lists", "why_tests_cant": "Ranges over all manifests and all metadata.", "anchors": ["horus_manager/src/registry/helpers.rs: add_features_to_cargo_toml, add_cargo_deps_to_cargo_toml"]}
{"id": "C253", "title": "A Python value sent on a topic without a message class arrives as the same value", "statement": "Lists, dicts, text, integers, finite floats, booleans and None arrive unchanged whatever their shape; tuples arrive as lists; exactly the values of other kinds are refused with TypeError and exactly those over 4096 bytes with ValueError; a message is told apart from no message; a node sends an object as the dict of its attributes.", "quantifier": "all Python values of the modelled kinds, of any shape, size and depth, and all depth limits of the reader", "why_tests_cant": "Ranges over all nested values; sizes and integer widths have many boundaries.", "anchors": ["horus_py/src/topic.rs: Topic::send, Topic::recv (generic topics)", "horus_py/horus/__init__.py: Node.send, _message_to_dict", "horus_types/src/generic.rs: GenericMessage::new, data"]}
{"id": "C254", "title": "C++ objects give their Rust handle back exactly once and never use it afterwards", "statement": "Whatever a C++ program constructs, moves, move-assigns, drops and calls, no C function receives a handle that was already given back, no handle is given back twice, a handle is held by exactly one object until it is given back, and when all objects are gone all handles have been given back; moving a client does not disturb its goals.", "quantifier": "all histories of construction, move, move assignment, destruction, method calls, goals and node builders over any number of objects", "why_tests_cant": "Ranges over all histories of object lifetimes; a wrong one is undefined behaviour, which a passing test does not show.", "anchors": ["horus_cpp/include/horus/action.hpp: GoalHandle, ActionClient, ActionServer", "horus_cpp/include/horus/impl/scheduler_impl.hpp: Scheduler, NodeBuilder::build", "horus_cpp/src/c_api.rs: horus_node_builder_build, horus_action_client_send_goal, horus_goal_handle_destroy"]}
{"id": "C255", "title": "A C++ lambda node reaches the topics it declared, with the types it declared them with", "statement": "For every sequence of declarations a send or receive by name reaches the last declaration of that topic when the type agrees; an undeclared topic does nothing; the listed names are the declarations in order. A struct node gets init, ticks, safe state and shutdown as the scheduler asks for them.", "quantifier": "all sequences of declarations, all topics and types, all runs", "why_tests_cant": "Ranges over all declaration sequences and over the type given at each call.", "anchors": ["horus_cpp/include/horus/node.hpp: LambdaNode", "horus_cpp/include/horus/impl/scheduler_impl.hpp: Scheduler::add"]}
{"id": "C256", "title": "Installing a PyPI package records the version pip installed and lists it once in pyproject.toml", "statement": "For every set of installed distributions the recorded version is that of the requested package; the version is pinned in pyproject.toml, existing entries stay, and a second install adds no second entry.", "quantifier": "all package names, versions, sets of distributions in any directory order, and all dependency lists", "why_tests_cant": "Ranges over all names and over every order in which the directory lists the distributions.", "anchors": ["horus_manager/src/registry/helpers.rs: detect_pypi_installed_version, add_dep_to_pyproject_toml", "horus_manager/src/registry/install.rs: install_from_pypi"]}
{"id": "C257", "title": "Updating packages replaces exactly the outdated ones by the newest version", "statement": "For every set of installed packages a dry run changes nothing, packages that are current stay, and after an update each outdated package is installed at the newest version.", "quantifier": "all sets of workspace and cached packages, all registries' answers, with and without a package name, --global and --dry-run", "why_tests_cant": "Ranges over all installed sets and over every combination of places a package can be in.", "anchors": ["horus_manager/src/registry/helpers.rs: update_packages", "horus_manager/src/registry/install.rs: install_from_registry"]}
{"id": "C258", "title": "Installing a package installs everything it needs, nothing else, and ends", "statement": "For every registry, manifest graph (with cycles) and workspace: a successful installation leaves the package at the version asked for, keeps the version of every other package that was there, and everything any package in the workspace asks for is there; nothing is added that was not asked for; the recursion ends; every installed dependency is at the version the resolver chose.", "quantifier": "all registries, dependency graphs, workspaces and global caches, whether the resolver succeeds or fails", "why_tests_cant": "Ranges over all dependency graphs, including cyclic ones, and over all states of the workspace and the cache.", "anchors": ["horus_manager/src/registry/install.rs: install_dependencies, install_dependency_spec, install_from_registry", "horus_manager/src/registry/helpers.rs: extract_package_dependencies, get_available_versions, check_global_version_satisfies"]}
{"id": "C259", "title": "The node list shows the nodes that are there, with their own data", "statement": "For every presence record another host announces, whatever its names, host and namespace contain short of a quote: the receiver's file is shown as exactly the announced nodes in order, running while the stamp is under 4 s old, unreachable until 31 s and then not at all; a local node shows the data of its own registry slot; a node carries a launch label exactly if a session has its process or name.", "quantifier": "all presence records, clocks and times; all registry slots and local nodes; all launch sessions", "why_tests_cant": "Ranges over all texts in a record (a name may equal any key of the file) and all clocks of two hosts.", "anchors": ["horus_manager/src/discovery/nodes.rs: discover_nodes_uncached, extract_json_string, extract_json_u64, extract_json_bool", "horus_net/src/presence.rs: handle_broadcast"]}
{"id": "C260", "title": "A package can only register a binary of its own as a command", "statement": "For every file system with symbolic links, every package directory and whatever the package's own files say: what is registered as a command and entered in the trust store with its checksum is a file that really lies inside the package; absolute and climbing paths make the package no plugin; a plain file of its own is accepted.", "quantifier": "all file systems with links, package directories and manifests; any bound on link following", "why_tests_cant": "Ranges over all link structures and all texts in a manifest.", "anchors": ["horus_manager/src/commands/pkg.rs: detect_plugin_metadata, parse_plugin_toml_manifest, parse_plugin_toml, resolve_within_package, find_binary, register_plugin_after_install", "horus_manager/src/plugins/registry.rs: calculate_checksum"]}
{"id": "C261", "title": "Uninstalling a package removes it and its command and nothing else", "statement": "For every state of the user's registry, bin directory, cache and project: installing a package that follows the naming convention and uninstalling it restores the state; uninstalling touches no command but the package's; a refused question changes nothing.", "quantifier": "all states of registry, links, cache, project dependencies and lock file; all package, version and command names", "why_tests_cant": "Ranges over all histories of the user's registry and cache.", "anchors": ["horus_manager/src/commands/plugin.rs: run_install, run_remove", "horus_manager/src/commands/pkg.rs: register_plugin_after_install, unregister_plugin, run_remove, remove_from_horus_toml, remove_from_horus_lock"]}
{"id": "C262", "title": "`horus add` and `horus remove` change the entry named and nothing else", "statement": "For every manifest, in any form of its sections, and every name, version, source and feature list: a successful `horus add` leaves exactly the entry asked for in the section asked for, with every other entry, its place and every other section as before; `horus remove` takes the name out and keeps the rest; adding a new name and removing it restores the manifest; a failed command changes nothing.", "quantifier": "all manifests, names, versions, sources, features and outcomes of the installation", "why_tests_cant": "Ranges over all manifests and all forms in which a section can be written.", "anchors": ["horus_manager/src/commands/pkg.rs: run_add_dep, run_remove_dep", "horus_manager/src/manifest.rs: upsert_manifest_entry, remove_manifest_entry", "horus_manager/src/main.rs: split_name_version"]}
{"id": "C263", "title": "Large messages reach every subscriber of a multi-subscriber topic whole, and their storage is given back", "statement": "On a topic with several publishers and subscribers in several processes, a message too large for a slot is delivered like any other: whatever the interleaving, a subscriber receives from a publisher a subsequence of the messages whose send succeeded, each byte for byte; every successful send is offered to every subscriber in order; a message among the newest of its ring is still stored while its publisher exists; storage is in use exactly while a publisher keeps it or a subscriber reads it, never more than the window per publisher, and none after everyone has stopped.", "quantifier": "all numbers of publishers and subscribers, messages, pool and ring sizes, and interleavings of sends, receives, failed allocations and drops", "why_tests_cant": "Ranges over all interleavings of publishers and subscribers and all outcomes of allocation.", "anchors": ["horus_core/src/communication/topic/dispatch.rs: send_fanout_shm, recv_fanout_shm, spill_to_pool, read_spilled_retained", "horus_core/src/communication/topic/mod.rs: Drop for RingTopic", "horus_core/src/communication/topic/local_state.rs: spill_keepalive"]}
{"id": "C264", "title": "The network settings of a project reach the processes it starts", "statement": "A network setting written in the project file as documented (off, import mode or list, export deny list, optimizers, secret, heartbeat, what to do when a link is lost) is the one every started process runs with; a variable the operator set wins over the file; a setting that is absent changes nothing; a restriction on imports is never read as no restriction; peers listed explicitly are the only ones contacted.", "quantifier": "all project sections, operator environments and ways of starting", "why_tests_cant": "Ranges over all texts and lists a project file may contain and all environments.", "anchors": ["horus_manager/src/commands/run/mod.rs: apply_network_config, execute_multiple_files", "horus_manager/src/manifest.rs: NetworkConfig", "horus_net/src/config.rs: NetConfig::default, ImportConfig::parse, SafetyConfig::default, csv_env, discovery_mode", "horus_net/src/heartbeat.rs: LinkLostAction::from_str"]}
{"id": "C265", "title": "Listing topics is exact and leaves topics in use alone", "statement": "The topics listed are exactly those that a region file, a validly named description or a running node speaks of, each once and in name order, with exactly the running nodes that publish and subscribe and the first type a publisher gives; status and rate mean what the documentation says; and looking at the list changes nothing for processes that have a topic open: everyone who has a topic open shares one region, whatever processes open, close, end, sweep or list in between.", "quantifier": "all directory contents and orders, node sets, liveness facts, and all histories of open, close, exit, sweep and list", "why_tests_cant": "Ranges over every order in which a directory may be read and every history of processes.", "anchors": ["horus_sys/src/discover/mod.rs: find_topics", "horus_manager/src/discovery/topics.rs: discover_shared_memory_uncached, cleanup_stale_topics_in_dir", "horus_manager/src/commands/run/mod.rs: execute_run", "horus_sys/src/shm/linux.rs: ShmRegion::new, Drop", "horus_sys/src/shm/mod.rs: write_topic_meta, remove_topic_meta, is_shm_file_stale"]}
{"id": "C266", "title": "A workspace is built from exactly its members and their declared dependencies", "statement": "The members of a workspace are exactly the directories its patterns match and its exclusions do not, each once; every member is built with the dependencies it declares, at the declared version, source, features and optional mark; inheriting a shared dependency gives the shared version with the features of both; a relative path written into a build file leads to the directory that was named; running a member starts the program that was just built.", "quantifier": "all member patterns and directory trees, all dependency tables of root and members, all installed packages and earlier builds", "why_tests_cant": "Ranges over all manifests and directory layouts; the interactions between root and member tables are unbounded.", "anchors": ["horus_manager/src/cargo_gen.rs: generate_workspace, generate_member_cargo, write_single_dep, rewrite_member_path_dep, pathdiff, sanitize_cargo_name", "horus_manager/src/manifest.rs: resolve_workspace_members, resolve_workspace_dep", "horus_manager/src/commands/run/mod.rs: execute_workspace"]}
{"id": "C267", "title": "Injected recordings are exactly the chosen ones and playback can be stopped", "statement": "`horus record inject` replays exactly the recorded nodes asked for, makes exactly the ticks from the start tick to the stop tick (or to the end of the recording), repeats the same ticks in a loop, and whenever it is interrupted shuts its nodes down, stops the script it started and ends; an error is reported as one.", "quantifier": "all recordings of a session and node lists, all start and stop ticks, all histories of turns, signals, commands and timer", "why_tests_cant": "Ranges over all interleavings of signals with runs of a loop and over unbounded numbers of rounds.", "anchors": ["horus_manager/src/commands/record.rs: run_inject, ChildGuard", "horus_core/src/scheduling/scheduler/recording.rs: add_replay, start_at_tick, stop_at_tick", "horus_core/src/scheduling/scheduler/mod.rs: setup_signal_handlers, should_stop_loop, run_with_filter"]}
{"id": "C268", "title": "cargo and cmake run through horus get the user's arguments on the project's files", "statement": "`horus cargo ARGS` and `horus cmake ARGS` inside a project run the real tool, never horus itself, with all of the user's arguments in order; the tool works on the project's generated files and build directory unless the user names others; what the user names is used.", "quantifier": "all argument lists, all working directories and search paths", "why_tests_cant": "Argument lists and directory depths are unbounded; what matters is how the tool will read the rewritten line.", "anchors": ["horus_manager/src/commands/proxy.rs: find_project_root, find_real_tool, run_cargo_proxy, is_cargo_global_command, run_cmake_proxy, is_cmake_mode_invocation"]}
{"id": "C269", "title": "The lock file is held against the machine", "statement": "`horus lock` keeps every pinned package and library and pins the tools of the machine; `horus lock --check` and every build report exactly the pinned tools whose major or minor version differs and the locked libraries that are not there, with a way to install them; `--check` fails when something is missing.", "quantifier": "all lock files, machines and version texts", "why_tests_cant": "Version texts and lists are unbounded; the machine on which the file is read is not the one on which it was written.", "anchors": ["horus_manager/src/system_deps.rs: verify_lockfile, check_toolchain, check_system_lock, suggest_system_install, format_lockfile_report, version_compatible, verify_lockfile_before_build", "horus_manager/src/main.rs: Commands::Lock"]}
{"id": "C270", "title": "A build names exactly the system packages its features lack", "statement": "For the hardware features detected in a program, the build reports exactly the packages, groups, libraries and devices they need and the machine lacks, each package, group and device once; it prints nothing when all are there; the quick fix installs what is missing.", "quantifier": "all feature tables, machines and lists of detected features", "why_tests_cant": "Features share packages and repeat in any order; exactness and absence of repeats are about all such lists.", "anchors": ["horus_manager/src/system_deps.rs: SYSTEM_DEPS, check_dependencies, format_dependency_report"]}
{"id": "C271", "title": "Self update updates what is out of date", "statement": "`horus self update` installs the registry's newer horus and the newer version of each registered plugin, and nothing else; `--check` installs nothing; a plugin whose installation fails does not stop the others; success is reported only for what was installed.", "quantifier": "all installed versions, registries of plugins, answers of the registry and outcomes of installations", "why_tests_cant": "Any number of plugins in two registries, any subset failing.", "anchors": ["horus_manager/src/commands/upgrade.rs: run_upgrade, upgrade_horus, collect_plugin_entries, upgrade_plugins, check_plugin_updates, list_installed_plugins"]}
{"id": "C272", "title": "A log line is put down to the call that wrote it", "statement": "A line logged inside a call of a node carries that node's name, tick number and the time since the call began, whatever other threads do; outside every call it carries no node's name; lines are kept in order; what the console shows and what the bridge from `log` forwards depend only on the level and the setting.", "quantifier": "all histories of calls and log lines on any number of threads, all settings and levels", "why_tests_cant": "Interleavings of threads and of calls are unbounded.", "anchors": ["horus_core/src/core/hlog.rs: set_node_context, clear_node_context, current_node_name, current_tick_number, log_with_context, log_as_node, format_console_line", "horus_core/src/core/log_bridge.rs"]}
{"id": "C273", "title": "Topics are put down to the nodes that use them", "statement": "A node is listed as publisher or receiver of a topic only if a handle of the topic was sent on or received on that was made in, or used in, one of its calls; each node is listed once per topic; the first send or receive in a call lists the node; the version that makes the scheduler rebuild its graph moves exactly when the lists do.", "quantifier": "all histories of calls, handles made, cloned, used and dropped, on any number of threads", "why_tests_cant": "Histories are unbounded; who is listed depends on where a handle was made, on its clones and on how often it was used before.", "anchors": ["horus_core/src/communication/topic/mod.rs: TopicNodeRegistry::register_with_type, publishers_of_topic, subscribers_of_topic, Topic::new, resolve_owner, send, recv, Clone"]}
{"id": "C274", "title": "Concurrent changes of a topic's backend are one at a time and numbered", "statement": "However many threads and processes try to change the backend of a topic, and wherever they die, at most one is changing it at a time; reported epochs are 1, 2, 3, … each once; who reads an epoch and then the backend sees that change's backend or a later one; with the participants unchanged the topic goes only to the backend they call for and stays there; a thread left alone gets it there.", "quantifier": "all interleavings of the atomic operations of any number of threads, with deaths at every point and participants coming and going", "why_tests_cant": "Interleavings and crash points are unbounded; the project's own tests found such windows only with an exhaustive checker on two threads.", "anchors": ["horus_core/src/communication/topic/migration.rs: BackendMigrator::try_migrate, perform_migration, migrate_to_optimal", "horus_core/src/communication/topic/header.rs: try_lock_migration, unlock_migration, detect_optimal_backend", "horus_core/src/communication/topic/mod.rs: check_migration"]}
{"id": "C275", "title": "Every handle follows a change of its topic's backend", "statement": "A handle that holds the present epoch works with the present backend; after a change a handle is up to date after a receive that finds nothing, after its first message since joining, after one message in a process that knows of the change, and after four messages anywhere, and stays so until the next change.", "quantifier": "all histories of changes, stale hints, joins, messages and empty receives on any number of handles in any number of processes", "why_tests_cant": "Histories are unbounded and hints may arrive late and out of order.", "anchors": ["horus_core/src/communication/topic/dispatch.rs: epoch_guard_send, epoch_guard_recv, housekeep_lease, housekeep_epoch", "horus_core/src/communication/topic/mod.rs: check_migration_periodic, handle_epoch_change", "horus_core/src/communication/topic/registry.rs: notify_epoch_change"]}
{"id": "C276", "title": "Threads joining a topic at the same time get their own slots", "statement": "Whatever the interleaving of registrations, a thread that is told it joined a topic holds a slot that names it, in the role it asked for; no two threads hold the same slot and none holds two; when nobody is registering the counts of publishers and subscribers equal the slots with that role; a registration is turned down only when every slot is in use; and it ends within a fixed number of its own steps, whatever the others do. (As long as nobody dies in the middle and no lease in use has run out.)", "quantifier": "all interleavings of the atomic operations of any number of registering threads, lease refreshes and passing time, for any size of the table", "why_tests_cant": "Interleavings are unbounded, and the damage (two owners of a slot, a counter one too high) shows only in the choice of backend afterwards.", "anchors": ["horus_core/src/communication/topic/header.rs: register_role, register_producer, register_consumer"]}
{"id": "C277", "title": "A topic with one publisher delivers serialised messages in order", "statement": "With one subscriber the accepted messages arrive in order, each once, without a gap, and a receive delivers the next one if it can be decoded; with several sharing the stream, each message is claimed by exactly one, in order, and one that reads before the publisher has come around gets what it claimed; a send is accepted exactly when there is room; a message that cannot be decoded does not stop the stream.", "quantifier": "all messages, all histories of sends and receives, all interleavings of any number of subscribers, all ring sizes, all decoders", "why_tests_cant": "Histories and interleavings are unbounded, and the tests use only messages that decode.", "anchors": ["horus_core/src/communication/topic/dispatch.rs: send_shm_sp_serde, recv_shm_spsc_serde, recv_shm_spmc_serde"]}
{"id": "C278", "title": "`horus new` makes the project it says and touches nothing else", "statement": "With a name that is a plain file name and nothing in the way, `horus new` succeeds and the manifest carrying the name and an entry point in the chosen language are there; a new project passes `horus check`; files that are not part of a new project are never touched, inside the directory or outside, even when the command fails half way; an existing project is not overwritten.", "quantifier": "all names, target directories, file systems, languages and flag combinations", "why_tests_cant": "Names and file systems are unbounded; the tests scaffold into an empty temporary directory.", "anchors": ["horus_manager/src/commands/new.rs: create_new_project, validate_project_name, create_gitignore, create_horus_toml_with_target, create_workspace_horus_toml, create_main_rs, create_main_py, create_cpp_project, create_lib_rs", "horus_manager/src/manifest.rs: HorusManifest::validate"]}
{"id": "C279", "title": "Threads and callbacks sharing an action client do not hang each other", "statement": "However many threads share one action client, whatever they call, whatever messages arrive and however they are scheduled: as long as status and result callbacks only make calls that do not pump, the feedback callback only cancels goals and looks at handles, and the callback of a waiting call only cancels goals, a thread that has not finished can go on or another can, no schedule goes on for ever for lock reasons, and at the end every call has returned and every lock is released.", "quantifier": "all numbers of threads, sequences of calls, inboxes, goal maps, loop counts, permitted callbacks and schedules; both policies for readers arriving while a writer waits", "why_tests_cant": "A hang shows only under one interleaving of the locks of several threads; the tests run one client thread with callbacks that only count.", "anchors": ["horus_core/src/actions/client.rs: ActionClientInner, process_messages, handle_status_update, handle_feedback, handle_result, sweep_stale_terminal_goals, register_goal, send_goal, cancel_goal, ClientGoalHandle::{await_result, await_result_with_feedback}, ActionClientNode::{tick, goal_status, active_goals, metrics}, SyncActionClient"]}
{"id": "C280", "title": "Threads and callbacks sharing the runtime parameters do not hang each other", "statement": "However many threads share the parameters, whatever they call and however they are scheduled: as long as change callbacks call neither `set`, `reset` nor `on_change`, a thread that has not finished can go on or another can, and at the end every call has returned and every lock is released.", "quantifier": "all numbers of threads, sequences of calls, outcomes of checks, numbers of permitted callbacks and schedules; both policies for readers arriving while a writer waits", "why_tests_cant": "A hang shows only under one interleaving; the tests change parameters from one thread with callbacks that take no lock.", "anchors": ["horus_core/src/params.rs: RuntimeParams::{get, get_typed, set, set_with_version, reset, remove, get_metadata, get_version, save_to_disk, load_from_disk, on_change}"]}
{"id": "C281", "title": "No emergency stop waits for ever", "statement": "However many scheduler and network threads use the safety monitor and the process-wide stop hooks, whatever they call and however they are scheduled: a thread that has not finished can go on or another can, and at the end every call, every emergency stop among them, has returned and every lock is released.", "quantifier": "all numbers of threads, sequences of calls, outcomes of checks, permitted hooks and schedules; both policies for readers arriving while a writer waits", "why_tests_cant": "A hang on the way to an emergency stop shows only under one interleaving of the locks of several threads; the tests trigger stops from one thread.", "anchors": ["horus_core/src/scheduling/safety_monitor.rs: SafetyMonitor, EstopTrigger::trigger, WatchdogFeeder::feed, trigger_external_emergency_stop, trigger_external_safe_state, set_emergency_stop_hook, set_safe_state_hook, take_pending_local_estop, get_stats"]}
{"id": "C282", "title": "Python threads, node callbacks and scheduler threads do not hang each other", "statement": "However many Python and scheduler threads there are, whatever methods of the bindings they call, from callbacks within callbacks included, and however they are scheduled: a thread that has not finished can go on or another can, and at the end every call has returned and every lock is released. Whoever waits for the interpreter lock holds no lock of the bindings.", "quantifier": "all numbers of threads, sequences of calls, nestings of callbacks and schedules", "why_tests_cant": "A hang between the interpreter lock and a lock of the bindings shows only under one interleaving; the tests check the order on one thread without Python.", "anchors": ["horus_py/src/scheduler.rs: PyNodeAdapter::{init, tick, enter_safe_state, shutdown}, PyScheduler::{run, run_for, tick, tick_once, tick_for, get_node_stats, get_all_nodes, get_node_count, has_node, get_node_names, __setstate__}", "horus_py/src/topic.rs: PyTopic::{send, recv, read_latest, stats}", "horus_py/src/node.rs: PyNodeInfo", "horus_py/src/drivers.rs: load_from, register_driver"]}
{"id": "C283", "title": "Plugins are listed, found and verified alike", "statement": "The list of plugin commands names each registered command once, in order, whatever the order in which the registries are walked; every command that would run is on it, and where the project inherits the global plugins every command on it would run. The list of plugins has a line for every registered plugin and no other, a global one is marked overridden exactly if the project has its own, and the lines not marked are those that would run. `horus verify` succeeds, with and without --json, exactly if every registered plugin, or each of the given name, has its binary with the checksum recorded. A search returns exactly the plugins that match the text and the category.", "quantifier": "all global and project registries and orders of walking them, all commands, files, checksums and search filters", "why_tests_cant": "The tests list one or two plugins; the order in which a hash map is walked and all combinations of global, project, overridden and not inherited plugins are out of their reach.", "anchors": ["horus_manager/src/plugins/resolver.rs: PluginResolver::{resolve_with_scope, all_commands, all_plugins, verify_all}", "horus_manager/src/plugins/registry.rs: PluginRegistry::{get_plugin, active_commands, verify_plugin}", "horus_manager/src/plugins/executor.rs: PluginExecutor::list_plugins", "horus_manager/src/commands/pkg.rs: verify_plugins", "horus_manager/src/commands/plugin.rs: run_search_with_category, parse_category"]}
{"id": "C284", "title": "horus clean removes what it announces and nothing else", "statement": "A `horus clean` that ends without error has removed exactly: without --shm the build directories that no build holds, the C++ build and the bytecode directories; with --shm the stale namespaces; with --all both and the cache of the user. --json removes the same. A dry run removes nothing, does not fail, and announces exactly what the command then removes. The document printed by --json lists exactly what is removed, and is alone on the standard output.", "quantifier": "all sets of present, locked and irremovable directories, all namespaces and processes, and all combinations of the flags", "why_tests_cant": "The tests look at one part at a time in an empty directory; the combinations of flags, locks and failures are many, and a failure part of the way is not tried.", "anchors": ["horus_manager/src/commands/clean.rs: run_clean, clean_build_cache, clean_cpp_build, clean_pycache, clean_shared_memory, clean_horus_cache", "horus_manager/src/cli_output.rs: info, header, success"]}
{"id": "C285", "title": "Calibration from points finds the transform that made the points", "statement": "From exact measurements of at least three points, `horus tf calibrate` gives the rotation and translation that take the sensor points to the world points: for points in no plane and a rotation that is no half turn up to an error that shrinks with each of its hundred rounds. The centroid of the sensor points is always put on the centroid of the world points, and fewer than three pairs are refused.", "quantifier": "all lists of point pairs, all unit quaternions and all translations (over the real numbers)", "why_tests_cant": "The tests use a few points and small rotations; which point sets and rotations defeat the iteration is a question about all of them.", "anchors": ["horus_manager/src/commands/tf.rs: calibrate_from_points"]}
{"id": "C286", "title": "Hand-eye calibration finds the pose of the sensor on the hand", "statement": "From exact poses of the hand and of the sensor (the sensor fixed on the hand, the sensor's poses given in any frame fixed to the robot), `horus tf hand-eye` answers with exactly the sensor's rotation and translation on the hand. Lists of different lengths and fewer than three poses are refused. Motions that do not determine the answer are an error.", "quantifier": "all lists of poses, all mounts of the sensor and all frames (over the real numbers)", "why_tests_cant": "The tests solve a few systems with small numbers; which motions and mounts defeat the equations is a question about all of them, and the wrong answers look like right ones.", "anchors": ["horus_manager/src/commands/tf.rs: hand_eye_calibration, rotation_to_modified_rodrigues, rotation_to_matrix, invert_pose, multiply_poses, solve_3x3_least_squares"]}
{"id": "C287", "title": "The dependencies a package declares are the ones installed with it", "statement": "Every run-time dependency the registry lists for a package becomes a dependency to install, in the listed order, with the listed name, requirement and source (the registry, `pip:` or `cargo:`); dependencies for development do not. A dependency that cannot be understood is reported.", "quantifier": "all lists of declared dependencies, names, requirements and types, and all grammars of requirements", "why_tests_cant": "The tests parse a dozen texts; scoped names, odd requirements and prefixes combine in more ways than tests enumerate.", "anchors": ["horus_manager/src/dependency_resolver.rs: DependencySpec::parse, parse_pip_spec, parse_cargo_spec", "horus_manager/src/registry/helpers.rs: RegistryClient::get_dependencies"]}
{"id": "C288", "title": "pip is asked for the versions the dependency allows", "statement": "For a Python dependency with a version requirement, pip is given a requirement it accepts, and the versions that requirement takes are exactly those the dependency allows.", "quantifier": "all requirements (lists of comparators of every kind, with one to three numbers) and all released versions", "why_tests_cant": "The tests only look for the digits in the text; whether pip reads it, and as what, ranges over all requirements and versions.", "anchors": ["horus_manager/src/registry/install.rs: semver_req_to_pip, install_from_pypi, install_dependency_spec"]}
{"id": "C289", "title": "`horus msg hash` shows the hash the program compares", "statement": "Reading the Rust source of messages, `horus msg` finds every public struct with all its fields in order, and the hash it shows for one is the layout hash compiled into the program that uses it.", "quantifier": "all source files, all names, fields, types, comments and attributes in them", "why_tests_cant": "The tests try a few structs; the scan goes line by line over text anybody may write, and the hash is only of use if it agrees for all of it.", "anchors": ["horus_manager/src/commands/msg.rs: parse_messages_from_source, extract_struct_name, parse_field, canonical_message_form, fnv1a, compute_message_definition_hash", "horus_core/src/communication/macros.rs: message", "horus_core/src/communication/topic/mod.rs: const_fnv1a"]}
{"id": "C290", "title": "A wrong manifest is reported where it is wrong", "statement": "The line and column reported for an error in horus.toml are those of the place the parser names, two places are never reported alike, the table named is the one written there, and the manifest read is the nearest one above the current directory.", "quantifier": "all manifests, all places in them, all directory trees and starting directories", "why_tests_cant": "The tests use a few short ASCII manifests and one nesting; texts, offsets and depths are unbounded.", "anchors": ["horus_manager/src/manifest.rs: line_col, table_header, HorusManifest::find_and_load_from"]}
{"id": "C291", "title": "A project is built as the same language everywhere", "statement": "`horus run`, `horus build`, `horus deploy`, `horus check` and the formatting and linting commands take a project to be in the same language, and see every language the project has sources or build files of.", "quantifier": "all projects (names in the directory, in src and in .horus) and all ignore patterns", "why_tests_cant": "The tests make one small project per language; which files lie side by side in a project is open.", "anchors": ["horus_manager/src/manifest.rs: detect_languages, has_files_with_ext", "horus_manager/src/dispatch.rs: detect_project_languages", "horus_manager/src/commands/deploy.rs: detect_deploy_language", "horus_manager/src/commands/run/mod.rs: auto_detect_main_file", "horus_manager/src/commands/run/deps.rs: detect_language"]}
{"id": "C292", "title": "`horus fmt --check` and `horus lint` end well only if the code is in order", "statement": "The commands end with success exactly when a tool for each language of the project was run and found nothing wrong; a tool that crashes, is killed or cannot be started is a failure; `--check` writes no file; the C++ tools are given every C++ file of the project.", "quantifier": "all projects (languages, directory trees), all sets of installed tools, all ways the tools end, all added arguments", "why_tests_cant": "The tests run at most a few commands that exist on the machine; the tools installed, their ends and the trees are open.", "anchors": ["horus_manager/src/commands/fmt.rs: run_fmt", "horus_manager/src/commands/lint.rs: run_lint", "horus_manager/src/dispatch.rs: detect_toolchain, detect_rust_tools, detect_python_tools, detect_cpp_tools, cpp_source_files", "horus_manager/src/run_with_prefix.rs: run_prefixed, worst_exit_code, all_succeeded, exit_code_of"]}
{"id": "C293", "title": "`horus blackbox` shows exactly the events asked for, also while they are being written", "statement": "The command shows every recorded event that all the given options ask for, and no other, in order; `--last n` shows the latest n of those; `--follow` shows each event written after it was started exactly once, however its looks fall between the recorder's writes; `--clear` removes the recording only on a yes and leaves later recording as it was.", "quantifier": "all recordings, all options, all schedules of a recorder's writes and a follower's looks, all answers", "why_tests_cant": "The tests check single records against single filters; the follower has no test, and what it sees depends on the schedule.", "anchors": ["horus_manager/src/commands/blackbox.rs: run_blackbox, record_matches, is_anomaly, event_node_name, event_type_name, TickRange::parse, blackbox_tail, clear_blackbox", "horus_core/src/scheduling/blackbox.rs: BlackBox::record, BlackBox::with_path, BlackBoxEvent"]}
{"id": "C294", "title": "`horus launch --status` lists the launches that run and `--stop` stops the one named", "statement": "At any time `--status` lists exactly the launches that run, whichever were started, ended or killed before; `--stop` reaches the launch named and says so only if it did; the commands for a launched process go to that process's own scheduler.", "quantifier": "all histories of launches starting, refreshing, ending and being killed, other processes, and status calls; all presence records and scheduler directories", "why_tests_cant": "The tests write one session file and read it back; what is listed depends on the history of several launchers.", "anchors": ["horus_manager/src/commands/launch.rs: LaunchSession::write, LaunchSession::remove, LaunchSession::read, LaunchSession::read_all, LaunchSession::discover_schedulers, show_launch_status, stop_launch_session, run_launch", "horus_sys/src/process/mod.rs: ProcessHandle::is_alive"]}
{"id": "C295", "title": "`horus check` reports exactly the Python packages a program needs and lacks", "statement": "For every Python program, the packages reported missing are exactly those its import statements need that are neither part of the standard library nor installed, each once.", "quantifier": "all programs made of import statements, from statements and other lines, with any indentation; all answers of pip", "why_tests_cant": "The check reads text line by line; a test fixes one program and one set of installed packages.", "anchors": ["horus_manager/src/commands/check.rs: parse_python_imports, check_system_package_exists, run_check"]}
{"id": "C296", "title": "Building an installed package leaves its cargo configuration as it was", "statement": "Building an installed package from source never changes a `.cargo/config.toml` the package has, shows cargo exactly the overrides for the horus crates found locally if it has none, and leaves nothing behind, wherever the run is killed and whatever fails.", "quantifier": "all packages, environments, histories of runs, points where a run is killed, and failures to write", "why_tests_cant": "The tests write a manifest and look at the answer of one function; what remains depends on the point where a run ends and on the runs before.", "anchors": ["horus_manager/src/registry/helpers.rs: cargo_toml_has_horus_deps, inject_horus_path_overrides, cleanup_horus_path_overrides, precompile_package"]}
{"id": "C297", "title": "A package is installed from the place it belongs to", "statement": "`horus install NAME` takes a package from the horus registry if the registry has it, otherwise from the one public index that has it; if both have it the user decides; nothing is installed from a place that does not have the name asked for.", "quantifier": "all names, all answers of the three servers including none, all answers typed", "why_tests_cant": "The servers' answers and failures are outside a test's control; which place wins matters for every combination of them.", "anchors": ["horus_manager/src/registry/install.rs: install_to_target, detect_package_source, check_pypi_exists, check_crates_exists, prompt_package_source_choice", "horus_manager/src/registry/mod.rs: url_encode_package_name"]}
{"id": "C298", "title": "`horus run` of a C++ project starts the program just built", "statement": "After any history of builds, the program `horus run` starts for a C++ project is the one the last build wrote; if there is none it says so.", "quantifier": "all contents of the build directory, all histories of builds of any projects, configurations and kinds of generators", "why_tests_cant": "The tests put one file in an empty directory; which program is found depends on what earlier builds left in the shared directory.", "anchors": ["horus_manager/src/commands/run/run_cpp.rs: build_cpp, find_cpp_binary, is_executable", "horus_sys/src/fs/mod.rs: is_executable"]}
{"id": "C299", "title": "System packages are installed only with consent, and exactly the missing ones", "statement": "Building a C++ project calls `sudo apt install` only if the user agreed, by the variable HORUS_AUTO_INSTALL or by answering y or yes, and then with exactly the packages the C++ dependencies of the manifest need and the system lacks.", "quantifier": "all manifests, tables of known libraries, states of the system's packages, values of the variable and lines typed", "why_tests_cant": "The function calls sudo, so no test runs it; consent must hold for every input.", "anchors": ["horus_manager/src/commands/run/run_cpp.rs: ensure_system_deps, check_dpkg_installed", "horus_manager/src/cmake_gen.rs: apt_package_for, lookup_known_dep_public"]}
{"id": "C300", "title": "Building a C++ project keeps the link to its compile commands right and destroys no file", "statement": "After any history of builds the root of a C++ project links to the compile commands of the last build that wrote them, and a file of that name of the project's own is never lost.", "quantifier": "all contents of the root, all histories of builds, failures to make the link and points where a run is killed", "why_tests_cant": "The test makes one link in an empty directory; what is lost depends on what was there and on failures.", "anchors": ["horus_manager/src/commands/run/run_cpp.rs: symlink_compile_commands, build_cpp"]}
{"id": "C301", "title": "`horus test` succeeds only if the project's tests did, and runs them as asked", "statement": "`horus test` succeeds exactly if the tests of every language of the project do; with simulated drivers asked for, no test runs with real ones; tests that share memory run one at a time unless the user asks otherwise.", "quantifier": "all projects, options, and exit codes of the test runners", "why_tests_cant": "The command starts other programs, so its tests cover only the search for test files.", "anchors": ["horus_manager/src/commands/test.rs: run_tests, run_rust_tests, run_python_tests, run_cpp_tests"]}
