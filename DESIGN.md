# Formal model of softmata/horus in Lean 4

The source is `/repo` (read as text; nothing there was built or run). The model
lives in `lean/Verif/`, one directory per area, each split into

* `Model.lean` (or the file named after the protocol) – the code, function by function, every
  definition citing the source it models and stating its simplifications;
* `Spec.lean`, or a section "Specification" – a small specification independent of the model;
* the other files – lemmas, invariants, and the property theorems; beside each property theorem
  an `example` (or a witness theorem) shows that a concrete non-trivial case meets its hypotheses.

`properties.jsonl` states the properties in English, `MANIFEST.json` maps them to theorems,
`seeded/LOG.jsonl` records the wrong programs the theorems were tested against.

## Trusted base

* Lean 4.33.0's kernel. No axioms of our own; every theorem rests on at most
  `propext`, `Classical.choice`, `Quot.sound`. No `sorry`, `native_decide`, `bv_decide`.
  (`decide +kernel` is used for concrete witnesses and for facts about all 256 bytes: it is the
  kernel itself that evaluates there.)
* The faithfulness of the models, which were written by reading the Rust source. Each
  simplification is stated at the definition.
* Concurrency: shared-memory protocols are modelled as interleavings of atomic steps
  under sequential consistency. The Acquire/Release annotations are assumed to give at
  least the orderings the interleaving model uses; weak-memory behaviour itself is not modelled.
* Bytes are natural numbers below 256 (`List Nat` / `List UInt8`), machine integers are `Nat`
  with explicit ranges where overflow does not matter, and wrapping arithmetic (`% 2^64`,
  `BitVec`) where it does. Where a release build wraps and a debug build panics, the release
  behaviour is modelled and the case is named.
* Oracles: floating point comparisons, user callbacks, OS results, serde/bincode/JSON codecs,
  UTF-8 validation are parameters, universally quantified unless stated. Where a codec needs a
  law (it reads back what it writes), the law is an explicit hypothesis of the theorem.
* Process crashes are modelled as "no further step"; loss of the page cache (power failure) is not.

## Status per property

Generated from `MANIFEST.json`; the exact theorem names are there. "partial" means the full
statement of `properties.jsonl` is not a theorem, because it is false of the code (then the
negation is proved with a concrete witness) or holds only in the stated regime.

| Property | Status | How it is modelled and proved | What is missing or false |
|---|---|---|---|
| C01 Data packets survive the wire | proved | `Wire`: byte-list encoders/decoders of wire.rs with explicit offsets; round trip by induction on the batch, tiling by functional induction on the decode loop, flag arithmetic | round trip for every batch; messages beyond the buffer are cut at a message boundary |
| C02 Decoding arbitrary network bytes is safe and accountable | proved | `Wire`: byte-list encoders/decoders of wire.rs with explicit offsets; round trip by induction on the batch, tiling by functional induction on the decode loop, flag arithmetic | every byte string: decoded messages tile the buffer after the header; no access out of range (list model with explicit offsets) |
| C03 Heartbeats, acks, data and announcements are never confused | proved | `Wire`: byte-list encoders/decoders of wire.rs with explicit offsets; round trip by induction on the batch, tiling by functional induction on the decode loop, flag arithmetic | nothing |
| C04 Discovery announcements survive the wire | partial | `Discovery`: announcement codec and find_matches; round trip, membership characterisation, symmetry | round trip for names of at most 63 bytes; longer names are truncated, so two distinct topics can be announced identically (longName_conflated) |
| C05 Fragmentation reassembles exactly | partial | `Fragment`: fragmenter and the table of partial messages; invariant that stored fragments agree with the source, size invariants over every history | exact and complete for any order, loss and duplication until completion; the at-most-once half is false after completion: a second full set of fragments is delivered again (reassemble_twice) |
| C06 Reassembly memory is bounded under attack | proved | `Fragment`: fragmenter and the table of partial messages; invariant that stored fragments agree with the source, size invariants over every history | nothing |
| C07 Large messages replicate end to end | partial | `Replicator`+`Fragment`: handle_export composed with process_packet; round trip in the small case, impossibility theorem in the large one | holds for payloads of at most 1400 bytes; false for every larger one: the sender never writes the fragment header the receiver parses (large_never_delivered) |
| C08 Redundant copies are delivered at most once | partial | `Reliability`, `Replicator`: sequence map, latch table, resend decisions; monotonicity and size invariants over every history, witnesses at wrap and table cap | holds below 4096 (sender, topic) keys and while sequences stay within 2^31; outside that regime redelivery is possible (witness theorems) |
| C09 Latched (reliable) sends stop on ack and are bounded | proved | `Reliability`, `Replicator`: sequence map, latch table, resend decisions; monotonicity and size invariants over every history, witnesses at wrap and table cap | nothing |
| C10 Streaming MAC equals the standard one-shot MAC | proved | `Mac`: the streaming SHA-256/HMAC with the compression function of the code; state abstraction equals one-shot padding of `Mac/Spec.lean` | any split into pieces, any message and key length; the code's tables equal those of FIPS 180-4 |
| C100 A scheduler can be run again | partial | `Loop/Life*`: one state machine for run, run_for, tick_once, stop, pause and the executor threads; actions interleave freely; invariants over the event log | false of the code: a run leaves the running flag cleared and nothing sets it again, so every later run ticks nothing and shuts the main-thread nodes down a second time |
| C101 A stopped run stops | proved | `Loop/Life*`: one state machine for run, run_for, tick_once, stop, pause and the executor threads; actions interleave freely; invariants over the event log | the bound is attained; tick_once is not a run and ignores the request (tick_once_ignores_stop) |
| C102 A paused scheduler ticks nothing | partial | `Loop/Life*`: one state machine for run, run_for, tick_once, stop, pause and the executor threads; actions interleave freely; invariants over the event log | holds for main-thread and RT nodes; compute, event and async executors and the deterministic loop never read the pause |
| C103 A failed init is handled per its severity | partial | `Loop/Life*`: one state machine for run, run_for, tick_once, stop, pause and the executor threads; actions interleave freely; invariants over the event log | true on the main thread; an executor node whose init failed is never tried again, and tick_once ignores a fatal failure |
| C104 A node filter restricts a run | partial | `Loop/Life*`: one state machine for run, run_for, tick_once, stop, pause and the executor threads; actions interleave freely; invariants over the event log | holds for main-thread nodes; nodes on executors are ticked whether or not the filter names them |
| C105 A node's configured rate is kept | partial | `Loop/Pace`: the rate gates as recurrences over arbitrary loop times; the deterministic loop with fuel; shedding as a state machine; the partition as a function | never faster for main-thread, compute and async nodes; RT nodes may run up to half a loop period early (1.5 times the configured rate attained); a compute node at the loop rate runs at half of it |
| C106 Deterministic runs cover exactly the requested time | partial | `Loop/Pace`: the rate gates as recurrences over arbitrary loop times; the deterministic loop with fuel; shedding as a state machine; the partition as a function | exact for one-step graphs; with k steps the clock advances k periods per round, so nodes tick k times too rarely, and without a graph the run never ends |
| C107 Load shedding spares important nodes and ends | partial | `Loop/Pace`: the rate gates as recurrences over arbitrary loop times; the deterministic loop with fuel; shedding as a state machine; the partition as a function | ends after three idle cycles of a pool with at least one foreground node; a pool of background nodes only starves for ever after one overrun |
| C108 RT nodes do not delay one another | proved | `Loop/Pace`: the rate gates as recurrences over arbitrary loop times; the deterministic loop with fuel; shedding as a state machine; the partition as a function | for every graph; the price, ordering between dependent RT nodes, is noted in DESIGN.md |
| C109 An event node runs once per message | partial | `Loop/Event`: registry, watcher counters and publishing calls interleaved freely; freshness as a state machine over arbitrary clock values and counters | exact for send and a topic with one event node; with two event nodes only the last registered is triggered, and try_send/send_blocking trigger nothing |
| C11 Only authentic, fresh e-stops stop the robot | proved | `Estop`: packet codec, authentication, freshness, broadcaster; decision logic and round trip | nothing |
| C110 A stale subscription is reported, a live one is not | partial | `Loop/Event`: registry, watcher counters and publishing calls interleaved freely; freshness as a state machine over arbitrary clock values and counters | exact once a first message has been observed; false alarm at a late first check and for publishers using try_send/send_blocking; a stale Stop subscription is masked by an earlier stale SafeState one |
| C111 All open handles of a topic share one memory | partial | `Region/*`: one state machine for the system calls of open, wait, grow, close, crash and sweep over any number of processes; invariants over all interleavings; witnesses for the races | true from any settled state while one handle stays open, and in every history where no open overlaps the last close or a sweep; false otherwise, with four witnesses |
| C112 A mapped topic is backed by its file | partial | `Region/*`: one state machine for the system calls of open, wait, grow, close, crash and sweep over any number of processes; invariants over all interleavings; witnesses for the races | true when all handles use one size, or when opens do not overlap and nobody grows at once; false otherwise, with three witnesses |
| C113 Two processes on one topic agree about the message type | partial | `Region/*`: one state machine for the system calls of open, wait, grow, close, crash and sweep over any number of processes; invariants over all interleavings; witnesses for the races | true of every handle that did not have to wait for the creator; a waiting handle is not checked, a generic creator admits every type, and names are compared on 31 characters |
| C114 A topic left by a killed process can be used again | partial | `Region/*`: one state machine for the system calls of open, wait, grow, close, crash and sweep over any number of processes; invariants over all interleavings; witnesses for the races | true for one process retrying; overlapping joiners after a crashed creator never succeed, and a changed type fails once |
| C115 A topic name means one file, inside the topics directory | partial | `Region/Names`: names as lists of characters, path resolution component by component, mode bits as naturals, process tables as arbitrary predicates | containment holds; names with an empty component and names ending in .meta collide |
| C116 Robots with different namespaces do not see each other | partial | `Region/Names`: names as lists of characters, path resolution component by component, mode bits as naturals, process tables as arbitrary predicates | true for names of letters, digits and underscores; names that differ in punctuation share a namespace, and cleanup removes the namespace of a session whose leader exited while other processes use it |
| C117 Every language sees a message at the same offsets | proved | `Msg/Layout`: C layout rules as inductive relations over struct definitions; induction over the package shows the generator's environment always holds C layouts | layout arithmetic of the generator is unbounded; the checked arithmetic of the printer is modelled |
| C118 topic echo prints what was published or a hex dump | partial | `Msg/Decode`: memory images of values as an inductive relation, printouts as another; induction on the nesting fuel | true for registries that list every field and for byte arrays that do not begin with a zero; false otherwise |
| C119 The .hmsg parser accepts exactly the grammar and loses no message | partial | `Msg/Parse`: grammar of tokens as inductive relations, parser as a total function with fuel; completeness by induction on derivations, soundness on the fuel | exact for files that end with a closing brace; a file cut off after a doc comment or an attribute loses its last message without an error |
| C12 A genuine e-stop is always accepted and is sent four times | proved | `Estop`: packet codec, authentication, freshness, broadcaster; decision logic and round trip | nothing |
| C120 The layout hash sees every change of a definition | partial | `Msg/Hash`: injectivity of the canonical text by splitting at separators that names and types cannot contain; parser of types as left inverse of the renderer | true for messages that refer to no other; the type of a field that is another message leaves no trace in the hashed text |
| C121 A client waiting for a goal is told what the server decided | partial | `Verif/Actions/Client.lean`: the client, its three answer topics, the pump step by step, the clock and a server constrained only by its publication order; an invariant relating each handle to the published and still queued messages, a frozen-handle invariant for finality and for the lost answer, a counting invariant over the goals sent; the specification is `Verdict`, built from publications only | true when one thread sends and pumps; with a second pumping thread an answer that arrives between sending and registering a goal is lost for ever, and a waiter looking in the middle of a pump is told the result is missing |
| C122 The action client's counters count every goal once | partial | `Verif/Actions/Client.lean`: the client, its three answer topics, the pump step by step, the clock and a server constrained only by its publication order; an invariant relating each handle to the published and still queued messages, a frozen-handle invariant for finality and for the lost answer, a counting invariant over the goals sent; the specification is `Verdict`, built from publications only | no goal is counted twice in any schedule; but goals that succeed, and goals that are rejected, leave the map before they are counted |
| C123 Action callbacks see every message once and in order | partial | `Verif/Actions/Client.lean`: the client, its three answer topics, the pump step by step, the clock and a server constrained only by its publication order; an invariant relating each handle to the published and still queued messages, a frozen-handle invariant for finality and for the lost answer, a counting invariant over the goals sent; the specification is `Verdict`, built from publications only | true of the registered callbacks; the callback of a waiter is called only for the last feedback message of each pump |
| C124 A grid cell reads back what was last written to it | partial | `Verif/Percept/Grid.lean`: cells as a list indexed with wrapping 32-bit arithmetic, call sequences as folds; the specification is one cell at a time (`cellAfter`); refinement by the invariant `Holds`, aliasing shown on a 65536 by 65537 grid | proved for grids of at most 2^32 cells; above that the 32-bit index wraps and two cells share one byte (a debug build panics); fill does not clamp |
| C125 A cost map's two layers never disturb each other | partial | `Verif/Percept/Grid.lean`: cells as a list indexed with wrapping 32-bit arithmetic, call sequences as folds; the specification is one cell at a time (`cellAfter`); refinement by the invariant `Holds`, aliasing shown on a 65536 by 65537 grid | proved for maps of at most 2^32 cells, same index arithmetic as C124 |
| C126 World and grid coordinates agree | partial | `Verif/Percept/World.lean`: both transforms over exact rationals with the saturating and truncating casts; the specification is the half-open square of a cell (`InCell`) and the turned centre (`centre`) | proved over exact numbers for unturned maps, up to a millionth of a cell at the edges; false at the edges, for turned maps (the orientation is ignored), for sides of 2^31 cells or more and for resolutions below a nanometre; floating-point rounding is not modelled |
| C127 A pixel reads back what was last written to it | partial | `Verif/Percept/Image.lean`: the byte buffer, row step and encodings; the specification is one pixel at a time (`pixelAfter`); refinement by the invariant `IHolds`, regions by splitting rows into pixels | proved for rows below 4 GiB; above that the recorded row length wraps and rows share bytes |
| C128 A region of interest is exactly its pixels | partial | `Verif/Percept/Image.lean`: the byte buffer, row step and encodings; the specification is one pixel at a time (`pixelAfter`); refinement by the invariant `IHolds`, regions by splitting rows into pixels | proved for rows below 4 GiB, as C127 |
| C129 A depth pixel reads back what was stored | proved | `Verif/Percept/Cloud.lean`: depth buffers (invariant `IHolds` again, floor arithmetic for millimetres), point writing by induction over the points, frame names over Lean's own UTF-8 encoder and decoder | millimetre conversion over exact numbers, for the scale every new image has |
| C13 Topic patterns mean what they say | proved | `Guard`: the greedy glob equals the declarative wildcard relation; import/export decision over every history of announcements | nothing |
| C130 Points come back as they were given | proved | `Verif/Percept/Cloud.lean`: depth buffers (invariant `IHolds` again, floor arithmetic for millimetres), point writing by induction over the points, frame names over Lean's own UTF-8 encoder and decoder | for lists of fewer than 2^32 points, which is what the 32-bit point count can hold |
| C131 A frame name reads back as it was set | partial | `Verif/Percept/Cloud.lean`: depth buffers (invariant `IHolds` again, floor arithmetic for millimetres), point writing by induction over the points, frame names over Lean's own UTF-8 encoder and decoder | names that fit come back and longer ones never become another name; but a name cut inside a character is lost altogether |
| C132 Node code is told the truth about its own tick | partial | `Verif/Time/Context.lean`: the thread-local context, thread histories as event lists, the generator and name hash as parameters; the specification is what each question should be answered (`Says`); invariants `Disarmed` and `Inside` over every history | every answer is right for every history; but timestamps taken outside ticks are on another clock, and a closure passed to rng that asks for the time panics |
| C133 Random numbers in a tick are reproducible | proved | `Verif/Time/Context.lean`: the thread-local context, thread histories as event lists, the generator and name hash as parameters; the specification is what each question should be answered (`Says`); invariants `Disarmed` and `Inside` over every history | for every generator and name hash; contrary to the documentation it also holds in normal mode, where system entropy is promised |
| C134 budget_remaining is the budget less the time used | partial | `Verif/Time/Context.lean`: the thread-local context, thread histories as event lists, the generator and name hash as parameters; the specification is what each question should be answered (`Says`); invariants `Disarmed` and `Inside` over every history | exact for nodes ticked by executor threads, tick_once or alone; in a parallel round the time of earlier nodes is charged to later ones; in deterministic mode the budget never shrinks and the documented loop hangs |
| C135 Virtual and replayed time run forward and as recorded | partial | `Verif/Time/Clock.lean`: clocks as folds, `Rate` as a recurrence over arbitrary call times, wake-up delays and gaps, frequencies over exact rationals; inductions and floor arithmetic | the clocks are right; the scheduler advances the replay clock once per graph step instead of once per tick |
| C136 Timesteps add up to the time that passed | partial | `Verif/Time/Clock.lean`: clocks as folds, `Rate` as a recurrence over arbitrary call times, wake-up delays and gaps, frequencies over exact rationals; inductions and floor arithmetic | true for one-step graphs and nodes at the loop rate; false otherwise: rates are ignored in deterministic mode while dt() is still 1/rate, and the clock advances once per step |
| C137 A rate-limited loop keeps its rate | partial | `Verif/Time/Clock.lean`: clocks as folds, `Rate` as a recurrence over arbitrary call times, wake-up delays and gaps, frequencies over exact rationals; inductions and floor arithmetic | pacing is right for all work times; actual_hz reports the reciprocal of the work time, not of the cycle time, except for loops that always overrun two periods |
| C138 Budget, deadline and period of a frequency are ordered | partial | `Verif/Time/Clock.lean`: clocks as folds, `Rate` as a recurrence over arbitrary call times, wake-up delays and gaps, frequencies over exact rationals; inductions and floor arithmetic | over exact numbers; above 2 GHz the period is zero |
| C139 Every node takes part in every tick_once | proved | `Verif/Sched/Late.lean`: scheduler and topic registry as a state machine over add and tick_once calls with arbitrary topic use per call, on top of the graph builder of `Verif/Sched/Graph.lean`; the invariant `GraphFor` ties the stored graph to the nodes and registry it was built for | with distinct names, successful init and no node paused, stopped or rate limited |
| C14 Import/export guard enforces its policy | proved | `Guard`: the greedy glob equals the declarative wildcard relation; import/export decision over every history of announcements | second_subscriber_forgotten records that roles are not counted per handle: closing one of two subscriber handles closes the import for both |
| C140 A node added between calls takes part from the next call | partial | `Verif/Sched/Late.lean`: scheduler and topic registry as a state machine over add and tick_once calls with arbitrary topic use per call, on top of the graph builder of `Verif/Sched/Graph.lean`; the invariant `GraphFor` ties the stored graph to the nodes and registry it was built for | true only if the topic registry changes afterwards and something was registered before the first graph was built; otherwise the node is initialised and never ticked |
| C141 Known topics order the ticks | partial | `Verif/Sched/Late.lean`: scheduler and topic registry as a state machine over add and tick_once calls with arbitrary topic use per call, on top of the graph builder of `Verif/Sched/Graph.lean`; the invariant `GraphFor` ties the stored graph to the nodes and registry it was built for | true when something was registered before the first graph was built; false when topics are first used inside tick(), the usual case: the graph is then never rebuilt |
| C142 The builder accepts exactly the sensible configurations | proved | `Verif/Build/Builder.lean`: builder calls as a fold, finalize and validate as functions; the specification looks only at the last call of each kind | rates as exact positive numbers |
| C143 Accepted timing is consistent | partial | `Verif/Build/Builder.lean`: builder calls as a fold, finalize and validate as functions; the specification looks only at the last call of each kind | true when budget and deadline are derived; explicit values are not compared with each other or with the period |
| C144 The loop period fits the configured rate and every node | partial | `Verif/Build/Period.lean`: floor arithmetic over exact rationals | never too slow; but cut to whole microseconds, so up to a microsecond too fast, and zero above 1 MHz |
| C145 Node names are printable and unique | partial | `Verif/Build/Names.lean`: names as character lists, inductions | two different names of which one spells out an escape are refused as duplicates; nodes added with add_replay skip the check |
| C146 Presence files of accepted names stay in their directory | proved | `Verif/Build/Names.lean`: names as character lists, inductions | nothing |
| C147 A send that may wait publishes once or says it did not | partial | `Verif/Handle/Wait.lean`: the retry loops over an arbitrary attempt function, arbitrary interference before each attempt and arbitrary clock readings; then instantiated with the ring of `Verif/Handle` and a ghost log of what moved the head | holds for handles that keep to one purpose; on a handle that also receives, send_blocking overwrites earlier messages; Duration::MAX panics; the message counter counts send calls, not messages |
| C148 has_message and pending_count agree with recv | partial | `Verif/Handle/Peek.lean`: the three functions on the handle model; exactness from the invariants `Sole`, `Pure` and `Loop`; a send split into its claim and its write for the moment in between | exact for the only subscriber handle and for a handle alone on its topic; wrong with several subscriber handles on one thread, for publishers, and on the fan-out backend |
| C149 read_latest returns the last published message | partial | `Verif/Handle/Peek.lean`: the three functions on the handle model; exactness from the invariants `Sole`, `Pure` and `Loop`; a send split into its claim and its write for the moment in between | holds between calls for handles that keep to one purpose; a send-and-receive handle forgets its latest message, and during another handle's send the slot of a whole ring earlier is returned |
| C15 Peer filter admits exactly the configured networks | proved | `NetFilter`: CIDR on bits, token bucket with an arbitrary rounding function; prefix characterisation, potential argument | library text parsers are universally quantified parameters |
| C150 Dependency resolution satisfies every requirement | partial | `Verif/Pkg/Resolve.lean`: the breadth-first collection and selection over an arbitrary registry; invariants of the worklist; a specification of an installable set | soundness, maximality, order independence and termination are proved; requirements of versions given up on the way stay in force, so unneeded packages are installed and solvable sets refused, and an unreadable dependency list counts as empty |
| C151 A lock file says what was pinned last, in one form | partial | `Verif/Pkg/Lock.lean`: sorted pin lists with a canonical form; histories by induction; the staleness hash over its exact input text (the hash itself injective by assumption in the statement) | contents and form are proved; a new import is noticed when the manifest is unchanged, but the hashed text does not separate manifest and imports, no command of the tool pins anything, and an unreadable lock file is replaced by an empty one |
| C152 A reader never sees a half-written state file | partial | `Verif/Pkg/Save.lean`: savers as write/rename steps over a disk of open files, any interleaving and crash point; invariant with one saver, witnesses with two | holds with one saver at a time; all savers share one temporary name, so two at once tear or mix the file; with own temporary names it would hold for any number |
| C153 Only accepted plugins run | proved | `Verif/Pkg/Trust.lean`: plugin lookup, the gate, the stores and the commands over contents-addressed files; invariants over histories that mix user commands and project changes | for all histories of the modelled commands and of changes to project files; the file is hashed and then run by path, see C154 |
| C154 Disabling, checking and untrusting plugins takes effect | partial | `Verif/Pkg/Trust.lean`: plugin lookup, the gate, the stores and the commands over contents-addressed files; invariants over histories that mix user commands and project changes | disabling is honoured when the plugin is found through the registry; its link in the bin directory still runs, without the checksum, and untrust is by contents |
| C155 Unpacking a package touches nothing outside its directory | proved | `Verif/Pkg/Extract.lean`: a file system with symbolic links and path resolution; the entry filter and the extraction loop; invariant that all links inside are relative without `..` | for all archives; hard links are modelled as files with given contents (the extraction library resolves their source) |
| C156 Installing a package is all or nothing | partial | `Verif/Pkg/Install.lean`: the recursive copy against an inductive specification of what a tree shows; the swap as a program of disk operations cut at any point; interleavings of two programs | never a half-copied new package; but the old one is removed before the new one is renamed, versions differing after the last dot share a staging directory, a link to its own directory is copied without end, and a version with a slash escapes the cache |
| C157 What is installed is what the publisher signed | partial | `Verif/Pkg/Verify.lean`: the checks as functions of arbitrary hash, signature and key functions; names as character lists | the checksum is always enforced; a package sent without its signature is installed although the key is on file, and signatures of scoped packages are never checked |
| C158 Package names have their own directory and address | partial | `Verif/Pkg/Verify.lean`: the checks as functions of arbitrary hash, signature and key functions; names as character lists | addresses are exact; directories are safe for accepted names, but names with double underscores collide and the rules are not applied when installing |
| C159 Shared buffers live exactly as long as someone uses them | partial | `Verif/Pool/Keep.lean`: reference counts, handles and one kept buffer per topic handle; invariant that counts equal users plus keepers; receiving as retain-if-alive; witnesses for all n | no use after free for every run; counts are exact and everything is returned as long as image types are allocated from the global pool, an image on another pool leaks |
| C16 System-topic traffic is rate limited | proved | `NetFilter`: CIDR on bits, token bucket with an arbitrary rounding function; prefix characterisation, potential argument | floating-point addition is any function within epsilon of the exact sum |
| C160 A waiting image can be received | partial | `Verif/Pool/Keep.lean`: reference counts, handles and one kept buffer per topic handle; invariant that counts equal users plus keepers; receiving as retain-if-alive; witnesses for all n | receiving succeeds exactly while someone still holds the buffer; the topic keeps only the last one sent, so of images sent and dropped only the newest can be received; contents are shared, not copied |
| C161 A launch file starts every node after what it depends on | partial | `Verif/Launch/Order.lean`: the depth-first sort with its visiting set, fuel shown sufficient; specification by the dependency relation and its transitive closure; starting as a loop over an arbitrary spawn oracle | holds for files with distinct names whose dependencies are in the file; a missing dependency is an error that leaves what was started running, and of two nodes of one name one is dropped silently |
| C162 Launched nodes are restarted within limits and none outlives the launch | proved | `Verif/Launch/Watch.lean`: passes of the loop over a world of processes that end whenever the environment likes; invariant that live processes are listed and that restarts and back-offs match; witnesses for commands | for processes launched directly; what they start themselves is not modelled; the policy is kept as long as RestartNode is not used on the node (C163) |
| C163 Launch control does what it says | partial | `Verif/Launch/Watch.lean`: passes of the loop over a world of processes that end whenever the environment likes; invariant that live processes are listed and that restarts and back-offs match; witnesses for commands | StopAll and e-stop end the loop; but a stopped node is restarted by its policy, a commanded restart changes the policy for good and counts against the limit, the session file is filled by position, releasing an e-stop shuts down too, and an e-stop waits for the back-off of crashed nodes |
| C164 'Did you mean' names the nearest candidate | partial | `Verif/Util/Similar.lean`: the two-row computation with rows as long as the bytes; specification by single edits; induction on rows against the recursive distance | for ASCII names; with a non-ASCII candidate the distance is a number that depends only on lengths |
| C165 Retrying retries transient errors only, and within limits | partial | `Verif/Util/Retry.lean`: the loop over an arbitrary outcome of each call; the call sites as folds over clock readings and interleavings | all proved but the bound of the waits, which does not hold for the first wait |
| C166 Throttled logging | partial | `Verif/Util/Retry.lean`: the loop over an arbitrary outcome of each call; the call sites as folds over clock readings and interleavings | holds for one thread, and hlog_once! for all; two threads can print in one interval, and a clock set back silences the call site |
| C167 Text in fixed-size messages reads back | partial | `Verif/Msg/Text.lean`: UTF-8 encoder, lossy and strict decoders, writers and readers on bytes; specification by the longest prefix that fits | all but TimeReference::source_name, which is empty when a character is cut; texts without NUL |
| C168 Generic messages carry any payload up to 4096 bytes | partial | `Verif/Msg/Generic.lean`: buffers with lengths, the map decoder over arbitrary entries; small state machines | holds for formats with field names; formats without never decode, and raw bytes with a length out of range panic |
| C169 Health messages agree with themselves | partial | `Verif/Msg/Generic.lean`: buffers with lengths, the map decoder over arbitrary entries; small state machines | the mode field can disagree with is_safe, a stamp from the future is fresh, the least offset overflows |
| C17 Peer failure detection is accurate and reported once | partial | `Peers`: heartbeat and peer tables; invariants over every event history | accuracy holds for thresholds of at least 2; with the configurable threshold 1 it is false (threshold_one_false_alarm) |
| C170 A rate limiter keeps the rate | partial | `Verif/Time/Rate.lean`: one turn as a function of working time and lateness; invariants by induction on turns | all but actual_hz, which reports the inverse of the time worked and not of the period |
| C171 An external driver runs once and is restarted within limits | partial | `Verif/Drivers/Exec.lean`: the driver and its processes as a state machine; invariant 'what runs is the child' | holds while the process can be queried; a failing query starts a second process beside the first; the wait overflows from restart 56 on with the default delay |
| C172 The hardware table is loaded as written | partial | `Verif/Drivers/Load.lean`: the loop over arbitrary TOML tables, compared with a relation saying what an entry becomes | entries without a known key are skipped rather than refused, a target after a space is not simulated, get_or hides wrong types, and Python ignores simulation; the TOML parser and floating-point getters are not modelled |
| C173 Tools see every node's latest metrics | partial | `Verif/Sched/Registry.lean`: byte-addressed memory with the slots at their offsets; induction on registrations and updates | for at most 64 nodes with different names of 1 to 47 bytes, read between two updates; beyond that nodes share slots or disappear, and files left behind win |
| C174 Telemetry exports every node without stalling the scheduler | partial | `Verif/Util/Telemetry.lean`: map, bounded channel and posting thread as a state machine; sublist invariant | the channel is as claimed; but of the per-node metrics only the last node's are in a snapshot, because metrics are keyed by name without labels |
| C175 Geometry helpers obey geometry | partial | `Verif/Msg/Geometry.lean`: the formulas over the reals, compared with axis rotations; for the hang, the set of doubles and rounding to nearest | proved in exact arithmetic; in floating point normalize_angle does not end from 2^57 on, and the default TransformStamped is not a valid transform; rounding is otherwise not modelled |
| C176 Tick counters and health tell what happened | partial | `Verif/Loop/Account.lean`: the counters as each executor updates them, folded over arbitrary histories; safing as one pass over arbitrary lists of nodes | counters hold for every class but event; health holds for real-time, compute and async nodes; event and main-thread nodes are never marked, and no mark is taken away |
| C177 A safing request is honoured | partial | `Verif/Loop/Account.lean`: the counters as each executor updates them, folded over arbitrary histories; safing as one pass over arbitrary lists of nodes | holds for async, event and initialised real-time nodes; the compute pool honours requests only in a pass in which some node is ready |
| C178 Profiling statistics are exact | partial | `Verif/Sched/Profiler.lean`: the one-pass update over the reals against the textbook definitions; induction on the samples | all but the failure rate; durations are exact reals |
| C179 Sandboxed plugins cannot use the network or gain privileges | partial | `Verif/Pkg/Sandbox.lean`: the filter program run on a small BPF machine, for every table and system call | the filter computes exactly its table; x32 call numbers, io_uring and some others pass it, long-lived plugins have no filter, and old kernels leave descriptors from 1024 open |
| C18 Peer table is bounded and never forgets a live peer | proved | `Peers`: heartbeat and peer tables; invariants over every event history | forged_id_redirects states the limit: an announcement with the victim's own id is not a new host |
| C180 horus clean removes only what is dead or asked for | partial | `Verif/Pkg/Clean.lean`: the set of removed directories as a function of the machine's state; `__pycache__` search on inductive trees against a relational specification | --all-namespaces without --force depends on whether some namespace is dead; the caller's own namespace goes without --force if its leader is gone; locks of other profiles are not seen; links are followed |
| C181 Hooks run around commands as configured | partial | `Verif/Build/Hooks.lean`: the trace of hooks and body as a function of arbitrary outcomes | holds unless a hook ends the process, as a failing fmt or lint hook does; post_test does not follow a failing test; an unreadable manifest skips the hooks |
| C182 Names and arguments reach programs as they are | partial | `Verif/Util/Shell.lean`: a lexer for POSIX quoting as a state machine; induction on the text | scripts ending in a comment swallow arguments; ~user directories and identity files with spaces or quotes fail; the shell and rsync are modelled from their documentation |
| C183 horus deploy does what was asked, or says that it did not | partial | `Verif/Build/Deploy.lean`: settings as functions, the steps as a trace, rsync patterns as a matcher on paths | answering no still starts the old program and reports completion; --port 22 and unknown architectures are ignored; a killed program counts as success |
| C184 horus deploy sends the program just built and no secrets | partial | `Verif/Build/Deploy.lean`: settings as functions, the steps as a trace, rsync patterns as a matcher on paths | a binary the developer built for their own machine can be sent; source directories called target are dropped; id_ecdsa keys are sent |
| C185 Commands find the workspace they are in | partial | `Verif/Build/Workspace.lean`: the climb against a nearest-ancestor specification; the list folded over arbitrary registrations; the scan against an inductive relation | found from at most nine levels below; the global ~/.horus makes home a workspace; concurrent registrations are lost; binaries apart unless CARGO_TARGET_DIR is absolute |
| C186 horus cargo changes only what cargo changed | partial | `Verif/Build/NativeSync.lean`: tables as functions of names; the new table characterised pointwise | any change by cargo deletes the development dependencies, moves path dependencies and drops features of git ones; concurrent additions are lost |
| C187 horus pip and conan record what was installed | partial | `Verif/Build/PipSync.lean`: requirement texts against the PEP 508 grammar; argument lists folded | holds for plain requirements; extras, markers, URLs and comments are misread; a new version of a recorded package is not recorded; values of options are recorded as packages |
| C188 A message from a machine with the other byte order is understood | partial | `Verif/Wire/Endian.lean`: layouts as lists of widths; an iff proved by induction with a one-hot message as the witness | exactly the layouts whose fields all have the guessed size are understood; pairs of 32-bit fields are exchanged and text is reversed in groups of eight |
| C189 Real-time threads run on the cores asked for | partial | `Verif/Sched/Affinity.lean`: the allowed CPUs as a sorted list; pinning inherited by threads started later | a core is taken as an index among the allowed CPUs, so isolated CPUs are never used and another CPU is used in their place; several cores given to the scheduler all collapse onto one |
| C19 Topic matching is symmetric and type safe | proved | `Discovery`: announcement codec and find_matches; round trip, membership characterisation, symmetry | nothing |
| C190 Large messages are copied exactly | proved | `Verif/Ring/Copy.lean`: memory as a function of addresses, a log of stores and fences; invariant of the two loops by strong induction on the bytes left | nothing |
| C191 A C++ action goal gets one result | partial | `Verif/Ffi/Action.lean`: transition system of clients, server and goal threads; invariant of all reachable states | a cancellation read before its goal is lost, a rejection is not reported, polling for one goal discards the results of others, goals running at shutdown get no result |
| C192 C++ service calls get their own answer | partial | `Verif/Ffi/Service.lean`: transition system of clients and server over two topics; invariants on request numbers | with one client per process; two clients in one process use the same request numbers and get each other's answers; a failing handler answers null as if it had succeeded |
| C193 A C++ node gets the schedule it asked for | partial | `Verif/Ffi/Builder.lean`: the C++ builder refines the Rust builder of `Verif/Build/Builder.lean` through an abstraction function; callback tables by induction over the nodes built | for whole rates; other rates are cut to a whole number and those below one hertz end the process; 32 nodes with callbacks per process |
| C194 A Python node gets the schedule it asked for | partial | `Verif/Py/Node.lean`: the constructor and the binding composed, refined to the Rust builder of `Verif/Build/Builder.lean` | an empty event topic is not refused and makes the node real-time instead of event-driven |
| C195 A Python callback runs once and its failure reaches the failure policy | partial | `Verif/Py/Node.lean`: callbacks as arbitrary functions of an interpreter state; case analysis of the adapter | unless the body raises TypeError, when the callback is run a second time without its argument; an interrupt in init leaves the scheduler running with every Python node skipped |
| C196 The Python scheduler keeps its nodes, stops, and tells the truth about itself | partial | `Verif/Py/Sched.lean`: nested histories of operations; mutual induction | queries are right while it does not run; while it runs it reports no nodes, before it runs it reports running; it can be run once; a duration of 0 means for ever |
| C197 A Python node receives every message once, in order | partial | `Verif/Py/Sched.lean`: queue with look-ahead buffer; invariant over all calls | each message once, in order, always; has_msg and recv_all are right when no message is None |
| C198 Python values on untyped topics arrive as sent | partial | `Verif/Py/Sched.lean`: conversion as a function on nested values; mutual induction | for values made of None, bool, int, finite float, str, list and str-keyed dict; not-a-number and infinities arrive as None and tuples as lists |
| C199 Waiting for a pool slot misses no return | partial | `Verif/Pool/Wait.lean`: transition system of threads with mutex and condition variable; invariant on what a failed attempt knows of later returns | among threads that share one pool object; a slot put back through another object (another process) wakes nobody; Duration::MAX panics |
| C20 Delta encoding is lossless and keyframes are periodic | partial | `Optimize`: delta, fusion, predictor, flow control as state machines against `Optimize/Spec.lean`; induction on the input stream | encoding and keyframes hold; the receiver does not apply deltas, so delivery is wrong (delta_delivered_wrong), and a lost delta mixes versions even with a decoder (lost_delta_tears) |
| C200 The network loop handles every datagram and does not starve its timer | partial | `Verif/Replicator/EventLoop.lean`: transition system of the edge-triggered loop; ranking function for the timer, invariant for the socket | unless more than 256 datagrams wait at one wakeup: then the rest stays in the socket until another datagram arrives |
| C201 The network layer knows which topics a process has open and publishes | partial | `Verif/Guard/Lifecycle.lean`: the lifecycle table and hook refine a specification over the open handles; invariant over all histories | without clones, and with handles dropped only as the last on their topic; otherwise an open topic is forgotten and a remote peer may be let overwrite a topic this process publishes |
| C202 Comparing two recorded sessions tells the truth | partial | `Verif/Replay/Tool.lean`: the counting loop is a capped sum over the compared pairs; uses the meaning of `diff_recordings` proved for C96 | for a limit above zero and sessions with one readable file per node; nodes in only one session are not mentioned |
| C203 Cleaning recordings deletes only what was asked | partial | `Verif/Replay/Prune.lean`: session names and their reading as text; induction over the selected sessions | ages are right to within a second; enormous limits wrap; some names make it panic; a session present in two search directories survives deletion |
| C204 Exported recordings can be read back | partial | `Verif/Replay/Export.lean`: round trip against an independent CSV reader; injectivity of the outputs column | the outputs column is only unambiguous for topics without a semicolon; overrides with letters outside ASCII may crash |
| C205 A transform recording holds what arrived | partial | `Verif/Tf/Record.lean`: invariant that the file body is the concatenation of the entries; crash = the file without the closing header | when no write fails and the recorder ends normally; a killed recorder leaves a file that reads as empty |
| C206 Comparing transform recordings misses no frame | partial | `Verif/Tf/Diff.lean`: tree as the list of registrations; connectedness invariant | for recordings in which each frame comes after the frame it hangs on |
| C207 Message files are split into the right tokens | proved | `Verif/Msg/Lex.lean`: the loop against an inductive grammar, both directions by strong induction on the length of the text | nothing |
| C208 The real-time readiness report tells the truth | partial | `Verif/Sched/Report.lean`: order statistics of a sorted copy, counting | the statistics are exact; the grade compares the length of the tick intervals, not their deviation, with the limits |
| C209 A node's timing statistics are right | partial | `Verif/Sched/Stats.lean`: invariants by induction over the history | rational arithmetic in place of f64; the 99th percentile is only an estimate |
| C21 Message fusion loses and reorders nothing | partial | `Optimize`: delta, fusion, predictor, flow control as state machines against `Optimize/Spec.lean`; induction on the input stream | nothing is lost or reordered; emission within the window is false without further traffic (fusion_last_message_stuck) |
| C210 Safety topics are sent with the most care | partial | `Verif/Wire/Priority.lean`: infix search against a statement about the name | all but the care for nodes with a budget, which is never taken |
| C211 A package comes from where it belongs | partial | `Verif/Build/Source.lean`: correctness of binary search; sortedness of the two tables, copied word by word, by kernel evaluation | all but the disagreements listed |
| C212 A failing program makes the command fail | partial | `Verif/Util/Prefixed.lean`: maximum over the results; prefix of the output | complete for fmt, lint and doc; `horus run` ignores programs that could not be started |
| C213 horus run runs what it is told and skips what is ignored | partial | `Verif/Build/Ignore.lean`: greedy search against an inductive meaning of the star | a pattern with stars never matches too much and one ending in a star matches exactly; the rest disagrees with the usual meaning as listed |
| C214 A misspelt key in horus.toml is reported | partial | `Verif/Build/Lint.lean`: lists against the manifest's fields, edit distance as a least number of edits, scanner lemmas | exact for the top level and four sections; other sections with fixed keys are not checked |
| C215 horus tf shows the frames that were sent | partial | `Verif/Tf/Reader.lean`: fold over the messages; rounds of registration; paths to a root | linking is proved for trees of depth two and for orders with parents first |
| C216 A lost link is acted on although discovery runs beside it | partial | `Verif/Peers/Timer.lean`: invariant along the run until one of the two supervisions fires | holds while discovery has not timed the peer out |
| C217 A C++ tensor or image owns its memory until it gives it up | partial | `Verif/Ffi/Pool.lean`: invariant over all programs (every object's slot is held once; bytes of held slots are disjoint) | all objects returned is proved for programs that release every tensor; images need no care |
| C218 A message struct means the same in C++ and in Rust | partial | `Verif/Ffi/Layout.lean` over `Verif/Ffi/LayoutTable.lean`: C layout rule as a fold, store and load lemmas, tables of all headers evaluated by the kernel | field-by-field for the 20 types whose Rust struct is in the repository; for the others (crate horus_robotics) sizes and offsets only, as recorded in the contract |
| C219 Generated message bindings do not clash and are valid | partial | `Verif/Msg/Emit.lean`: injectivity of the snake case and of stem plus ending; witnesses evaluated by the kernel | names are distinct under conditions the generator does not check; the rest are counterexamples |
| C22 Prediction never silences a topic | proved | `Optimize`: delta, fusion, predictor, flow control as state machines against `Optimize/Spec.lean`; induction on the input stream | the floating-point error test is a universally quantified parameter |
| C220 A node that promised not to allocate is stopped when it does | partial | `Verif/Sched/NoAlloc.lean`: thread-local guard as state, induction over the node's actions and over turns | enforced for nodes that do not catch panics themselves and allocate on the thread of the tick; the exceptions are proved |
| C221 Device names survive text and DLPack | partial | `Verif/Util/Device.lean`: decimal digits round trip; sign wrap | DLPack round trip for indices below 2^31 |
| C222 Observers see the last message and counters count messages | partial | `Verif/Handle/Observe.lean`: count and ring as state, invariant on the offset between count and head | exact when every message goes through `send` and none is dropped; the drift is proved exactly |
| C223 The features built are those asked for | partial | `Verif/Build/Features.lean`: folds characterised by membership; no duplicates by induction | what is switched on is exact; group names break the rest |
| C224 The test doubles behave as configured | proved | `Verif/Handle/Mock.lean`: conservation invariant; induction over calls | first in first out and exact fault pattern under all call histories; three theorems record how the doubles differ from the real thing |
| C225 Only types safe to copy are copied as bytes | partial | `Verif/Topic/Pod.lean`: induction over types | holds for plain and owned types; types with flags, enums or references inside are accepted too |
| C226 A Python topic is connected to what its name says | partial | `Verif/Py/Topic.lean`: list lemmas on cutting and lowering; the class table decided completely by the kernel | holds for names without `@` given as endpoint or by class; the rest are counterexamples |
| C227 Arrays handed to numpy stay inside their object | partial | `Verif/Py/View.lean`: on the descriptor model of `Pool/Shape`, signed address arithmetic | proved for tensors from anywhere and for images made by this library; images from elsewhere escape |
| C228 numpy arrays come back as they were given | partial | `Verif/Py/Numpy.lean`: list lemmas on bytes; the element-type tables decided completely by the kernel | holds for tensors without restriction, and for native-endian arrays elsewhere; the rest are counterexamples |
| C229 A published package holds the project and no secrets | partial | `Verif/Pkg/Publish.lean`: induction on the directory tree and on the lines | the archive holds exactly the files none of whose path parts is excluded; the rest are counterexamples |
| C23 Flow control keeps sending | partial | `Optimize`: delta, fusion, predictor, flow control as state machines against `Optimize/Spec.lean`; induction on the input stream | the decision depends on what is received, not on attempts: false in general (throttled_for_ever), true while the peer keeps sending |
| C230 The parameter commands do what they say and nothing else | partial | `Verif/Params/Cli.lean`: on the start-up layers of `Params/Model`, lookups in association lists | the commands do what they say for parameters the environment does not name, one command at a time; the rest are counterexamples |
| C231 `horus run` installs what a program imports, in the version it asks for | partial | `Verif/Build/Imports.lean`: list lemmas on splitting and trimming | exact for well-formed one-line statements and single constraints; the rest are counterexamples |
| C232 Cleaning the cache removes only what nobody uses | partial | `Verif/Pkg/Cache.lean`: membership in filtered lists | packages used by registered, readable workspaces are kept; the rest are counterexamples |
| C233 The sensors of a robot description are found | partial | `Verif/Drivers/Urdf.lean`: induction on blocks and sensors; patterns beginning with `<` are not found across tags | exact for descriptions written with double quotes, `name` and `type` only, and closed blocks; the rest are counterexamples |
| C234 `horus log` shows the newest matching entries | partial | `Verif/LogBuf/View.lean`: permutations and sorted lists; arithmetic of days and zones; induction on polls | exact within one day in UTC and for unraced polls; the rest are counterexamples |
| C235 The API comparison reports every breaking change | partial | `Verif/Build/ApiDiff.lean`: maps as lists, pieces of joined texts | removals and function changes are always caught where file names are distinct; fields and variants only when their names do not occur in what is left; the rest are counterexamples |
| C236 `horus migrate` loses no dependency and no file | partial | `Verif/Build/Migrate.lean`: tables, all prefixes of the sequence of changes, texts | files are never lost before the backup is reused; dependencies of distinct names in plain tables arrive; the rest are counterexamples |
| C237 Shell integration leaves the user's start files intact | partial | `Verif/Util/ShellRc.lean`: texts and their lines | exact for readable files without carriage returns; the rest are counterexamples |
| C238 `horus run` runs what the current sources give | partial | `Verif/Build/RunBin.lean`: a disk of programs and source revisions, cargo as an assumed step | exact for one file and for several Rust files in a project without its own `Cargo.toml`; the rest are counterexamples |
| C239 An error given context still says what happened and is treated alike | partial | `Verif/Util/ErrText.lean`: texts and nested errors | every message and cause can be read unless a cause only puts a label before the message; the rest are counterexamples |
| C24 Remote presence cannot escape the presence directory | proved | `Presence`: packet parser, file name sanitiser, record life cycle on a file map; invariants over every packet and clock history | crafted_name_forges_node records that file content is not escaped |
| C240 What a host replicates follows what its peers announce | partial | `Verif/Discovery/Update.lean`: update_matches as a function on reader and writer sets; two hosts exchanging one topic | opening and closing is proved for topics used one way here, and for exporting when every peer that shares a topic subscribes to it; the default import mode does not echo while readers belong to publishers; the rest are counterexamples |
| C241 Processes that attach to a tensor pool agree on where its tensors are | partial | `Verif/Pool/Attach.lean`: a file as length and header, new/open as functions | open is proved for every file up to the free list; agreement is proved for open, and for new with equal slot count and alignment; the rest are counterexamples |
| C242 What introspection shows about a running node is true | partial | `Verif/Sched/Refresh.lean`: one refresh as a function of counters, registry slots and clock; induction over histories against the running maximum | the counts, health, warning, rate and cadence parts are proved for every history; settings of executor nodes, start time, error count and stopped executor nodes are refuted |
| C243 Processes can share one log buffer whatever size each was given | partial | `Verif/LogBuf/Attach.lean`: opening as stat/set_len/map steps of several processes; the ring with a per-process modulus; invariants over schedules | proved for processes with one capacity under every schedule, and for any capacities when opens do not overlap; with different capacities both the mapping and the reading fail |
| C244 A text handed to a C caller stays inside its buffer and is what was asked for | partial | `Verif/Ffi/Text.lean`: memory as a function of addresses; C strings as a separate relational specification with uniqueness | memory safety and the terminated prefix are proved for all inputs; the last clause fails: a cut has exactly the effect and result of the shorter text |
| C245 Typed parameters set through C are read back through C | partial | `Verif/Ffi/Text.lean`: JSON values with readers per kind; equational | proved for integers, booleans, texts and finite floats; NaN and infinities are accepted and lost, and "not found" also covers a value of another kind |
| C246 A log line written from C++ is shown by `horus log` like any other | partial | `Verif/Ffi/Text.lean`: the entry the call publishes; sorting by time text, filter and last-n; induction over the list | recording of level and text proved; the showing by time fails because no time is recorded |
| C247 The node! macro makes the node that was written | partial | `Verif/Build/NodeMacro.lean`: sections as a fold with a relational account of what was said; expansion as data; names as character functions with an inverse on camel case | acceptance, order, fields and bodies are proved in full; the safe-state methods cannot be given and names are unique only for camel-case struct names |
| C248 A service call from the command line gets the answer to its own request, executed at most once | partial | `Verif/Service/Gateway.lean`: the shared directory as a transition system, one transition per file operation, kills anywhere; a seventeen-part invariant | correlation, at-most-once, clean-up and progress hold in every history with distinct numbers; that a request in order is answered fails when a file is read while it is being written |
| C249 A goal sent from the command line is handled, once | partial | `Verif/Actions/GoalFile.lean`: the one file of an action as a transition system; invariant with the fate of every goal | what is handled is right and, with one server, handled once; that what is sent is handled is refuted |
| C25 Network writes into shared memory stay in their slot | partial | `ShmNet`: writer and reader of a mapped topic file with explicit bounds and panics; every access in range, poll loop invariant | for serialized regions the slot size must be a multiple of eight (write_misaligned shows the failure); the writer's own steps only, not races with local producers |
| C250 Names typed at the command line reach the service they name and no file outside the gateway | partial | `Verif/Service/CliNames.lean`: names as characters, paths as component lists (`Names.resolve`) | resolution and containment of requests are proved in full; services with a '/' cannot be called and goals are not contained |
| C251 Nothing a package's metadata says is read as an option by a package manager | partial | `Verif/Pkg/ForeignArgs.lean`: programs as argument lists, read as the managers read them (options up to `--`) | options, requirements and consent given at a prompt are proved in full; a closed input counts as consent, names ending in '-' remove packages, and C++ projects are not checked |
| C252 Installing a driver adds what it needs to Cargo.toml and changes nothing else | partial | `Verif/Pkg/CargoEdit.lean`: the section as an ordered list of entries | what is written is exact; success is reported where nothing was written, and a nameless mention breaks the file |
| C253 A Python value sent on a topic without a message class arrives as the same value | partial | `Verif/Py/Values.lean`: Python values, JSON values and MessagePack as mutually inductive types; the decoder is proved the inverse of the encoder by structural induction | proved for all values nested no deeper than the reader's limit; deeper ones are taken by the sender and raise at the receiver, and a message of None or NaN looks like no message |
| C254 C++ objects give their Rust handle back exactly once and never use it afterwards | partial | `Verif/Ffi/Handles.lean`: a transition system of variables holding handles and the sequence of C calls; inductive invariant | proved for programs that cancel goals only while their client exists, build nodes only while the scheduler object exists and do not copy a builder; the code does not prevent these, and a builder that is dropped is leaked |
| C255 A C++ lambda node reaches the topics it declared, with the types it declared them with | partial | `Verif/Ffi/Lambda.lean`: the topic maps and callback registration as functions; induction over declarations | holds when every call names the type of the declaration; the code does not check it |
| C256 Installing a PyPI package records the version pip installed and lists it once in pyproject.toml | partial | `Verif/Pkg/PyPi.lean`: directory names and dependency entries as texts; induction over the lists | the recorded version is right when no other distribution's name begins with the package's name, and entries are not duplicated when the name has no dot; both conditions are needed |
| C257 Updating packages replaces exactly the outdated ones by the newest version | partial | `Verif/Pkg/Update.lean`: workspace and cache as a state, update as a fold; invariants of the fold | proved for cached packages; a package that is only in the workspace is lost |
| C258 Installing a package installs everything it needs, nothing else, and ends | partial | `Verif/Pkg/DepInstall.lean`: installation as a recursive function with errors over workspace and cache; induction on recursion depth with a set of packages still being worked on | presence, minimality and termination are proved; that the versions are those the resolver chose is false |
| C259 The node list shows the nodes that are there, with their own data | partial | `Verif/Presence/NodeList.lean`: the string searches over the file text; induction over the nodes with a step lemma for quoted tokens | exact for names without quotes, and for local nodes with distinct names; both conditions are needed |
| C26 Readers of a foreign topic file never read out of bounds | partial | `ShmNet`: writer and reader of a mapped topic file with explicit bounds and panics; every access in range, poll loop invariant | bytes returned are always inside the file; a wrapping length word panics (read_panics) |
| C260 A package can only register a binary of its own as a command | proved | `Verif/Pkg/PluginBin.lean`: path resolution with links, detection in its order, both checks; induction on the resolution for prefixes | nothing |
| C261 Uninstalling a package removes it and its command and nothing else | partial | `Verif/Pkg/Uninstall.lean`: state machine of registry, links, cache and project | the round trip holds under the naming convention; refusal, other names, several versions and the project's files are counterexamples |
| C262 `horus add` and `horus remove` change the entry named and nothing else | partial | `Verif/Pkg/AddDep.lean`: the manifest as sections of entries; induction over a section | adding is exact whenever it writes; removing is exact for sections written as tables; a failed installation and inline sections are counterexamples |
| C263 Large messages reach every subscriber of a multi-subscriber topic whole, and their storage is given back | partial | `Verif/Fanout/Spill.lean`: a transition system of publishers and subscribers over a pool with reference counts; three inductive invariants (counts and contents, channels and keep-alives, reception) | reception, storage and accounting are proved; messages that look like a descriptor, the oldest message of a ring and pools filled by keep-alives are counterexamples; subscribers are fixed and processes do not crash |
| C264 The network settings of a project reach the processes it starts | partial | `Verif/Guard/Config.lean`: the section as a record, rendering to variables, reading back; round trip of comma-separated lists and of decimal numbers | proved for runs of several files and lists of plain patterns; every other kind of run ignores the section, and some restrictions are read as none (counterexamples); ASCII blanks and case only |
| C265 Listing topics is exact and leaves topics in use alone | partial | `Verif/Region/TopicList.lean`: the table as a fold of insert-or-update operations with an invariant over all prefixes; histories with an invariant `Ok` | the contents of the list are proved in full; that users stay together is proved for histories in which no listing deletes a topic that is open (in particular without listing), and refuted otherwise; process identifiers are never used again |
| C266 A workspace is built from exactly its members and their declared dependencies | partial | `Verif/Build/Members.lean`: tables as lists of entries, cargo reading them by name; walking relative paths; induction over patterns and matches | membership, paths and inheritance of crates.io dependencies are proved; registry dependencies of members, optional marks, features of path dependencies, shared `serde`, scoped names and the root package are refuted; cargo itself is represented by what it reads from the tables |
| C267 Injected recordings are exactly the chosen ones and playback can be stopped | partial | `Verif/Replay/Inject.lean`: the process as a state machine over turns, signals, command and timer; induction over turns and rounds | the choice of nodes and the single run are proved; stopping a loop, ending with the recording and reporting errors in a loop are refuted |
| C268 cargo and cmake run through horus get the user's arguments on the project's files | partial | `Verif/Build/Proxy.lean`: argument lists and a reader for what cargo and cmake take from them; induction over the lists | arguments are kept and the plain uses reach the project; toolchains and options before the command, program arguments, `-Bdir`, `.` behind an option and scripts with definitions are refuted |
| C269 The lock file is held against the machine | partial | `Verif/Pkg/LockCheck.lean`: version texts, lock file, machine; induction over texts and lists | reports are exact for what is looked at; --check failing on missing libraries, absent tools, CMake, library versions and unreadable files are refuted |
| C270 A build names exactly the system packages its features lack | partial | `Verif/Build/SysDeps.lean`: the nested loops as folds; an invariant over the features processed | exact for any table; OpenCV's alternative names, the empty quick fix and machines without dpkg are refuted |
| C271 Self update updates what is out of date | partial | `Verif/Pkg/SelfUpdate.lean`: the world as answers, actions as a list; case analysis and induction over the registries | `--check` is inert and plugins are handled exactly once the phase runs; that horus itself is updated, that newer means newer, and that the plugin phase runs are refuted |
| C272 A log line is put down to the call that wrote it | partial | `Verif/LogBuf/Attribute.lean`: the context of each thread as a map; induction over histories | names, ticks and times inside calls are exact; the tick number outside calls and the settings `trace` and `off` are refuted |
| C273 Topics are put down to the nodes that use them | partial | `Verif/Sched/Owner.lean`: contexts, handles and registry as a state machine; induction over histories | who is listed really used the topic; that every user is listed, and that a node is taken off when its handle goes, are refuted |
| C274 Concurrent changes of a topic's backend are one at a time and numbered | partial | `Verif/Topic/Migrate.lean`: one event per atomic operation; invariants over all interleavings | exclusion, numbering and publication hold for every interleaving without broken locks (numbering and publication for all); that the topic ends on the backend its participants call for, that a death leaves it repairable and that a broken lock belongs to a dead thread are refuted |
| C275 Every handle follows a change of its topic's backend | partial | `Verif/Topic/Follow.lean`: header, hints and handles as a state machine; induction over histories | proved for every history without a death between the two writes of a change; with one, handles are stranded for good |
| C276 Threads joining a topic at the same time get their own slots | partial | Step-by-step transition system of the registration with any number of threads; an inductive invariant of twenty clauses, with a count of pending increments; a decreasing measure for termination; an invariant for the orphaned slot. | Partial: true only without deaths in mid-registration and without leases that run out; orphan_forever, refreshed_yet_taken and counter_stays_high show what happens otherwise. |
| C277 A topic with one publisher delivers serialised messages in order | partial | `Verif/Serde/Single.lean`: ring with cached positions, messages as bytes with a decoder that may fail; invariants over histories and interleavings | partial: with one subscriber a message that cannot be decoded stops the stream for good and then the publisher (one_stuck, one_wedged); a slow claimant gets a later message (slow_claimant_gets_later) |
| C278 `horus new` makes the project it says and touches nothing else | partial | `Verif/Build/New.lean`: names as lists of characters with byte lengths, the command as a list of file system operations run until one fails; frame and effect lemmas by induction on the list | partial: an existing project is overwritten (overwrites); names with capitals, of one letter or reserved make projects that `horus check` refuses (checks_iff says exactly which) |
| C279 Threads and callbacks sharing an action client do not hang each other | partial | `Verif/Actions/Locks.lean`: each method as the list of lock operations it performs, with callbacks inlined; the locks have an order every method keeps to, and a thread that waits implies one waiting for a higher lock | partial: the documentation puts no limit on what callbacks may call, and the five `…_hangs` theorems show calls that hang |
| C280 Threads and callbacks sharing the runtime parameters do not hang each other | partial | `Verif/Params/Locks.lean`: each method as the list of lock operations it performs; lock order as in C279 (`Verif/Common/Locks.lean`) | partial: the documentation does not forbid callbacks to set parameters or to register callbacks, and both can hang |
| C281 No emergency stop waits for ever | proved | `Verif/Safety/Locks.lean`: each method as the list of lock operations it performs, including the guard `get_stats` keeps to the end of its expression; lock order as in C279 | for the hooks the monitor installs and all that take no hook lock; hooks a user installs that replace themselves or call each other can hang |
| C282 Python threads, node callbacks and scheduler threads do not hang each other | partial | `Verif/Py/Gil.lean`: each method as the list of lock operations it performs, the interpreter lock being the lowest, `detach` giving it up and taking it again; lock order as in C279 | partial: as long as no finalizer written in Python runs while a binding holds one of its locks; where one does, threads can hang |
| C283 Plugins are listed, found and verified alike | partial | `Verif/Pkg/PluginList.lean`: registries as lists of entries in any order; invariant over the walk of the project for the lines | partial: a project that does not inherit still lists the global plugins; verifying an unknown plugin succeeds; an unknown category is ignored |
| C284 horus clean removes what it announces and nothing else | partial | `Verif/Pkg/CleanRun.lean`: the parts as outcomes joined by `?`; the set of removed directories and the announcements are compared part by part | partial: the document of --json is neither the list of what is removed nor alone on the standard output |
| C285 Calibration from points finds the transform that made the points | partial | Horn's matrix seen from the true quaternion is the trace on the scalar part and twice the moment matrix less the trace on the rest; for points in no plane this shrinks the rest (Cauchy-Schwarz for the moment form), for flat points it has the eigenvalue minus the trace. | partial: the guarantee needs points in no plane and a rotation that is no half turn. For points at one height turned about the vertical the answer is always no rotation, whatever the angle, and for half turns the answer is always at right angles to the true quaternion. Floating point is not modelled. |
| C286 Hand-eye calibration finds the pose of the sensor on the hand | partial | Quaternion algebra: both ways to the sensor give a x = x b up to sign for each motion, hence the linear equations in the parameters tan(angle/2) times the axis; Cramer's rule on the normal equations is exact for equations with a solution. | partial: the exact answer needs a mount that is no half turn, motions neither tiny nor close to half turns, and determinants not taken for zero. Motions about one axis are answered with no rotation and no translation instead of an error; a half turn is never the answer; the axis of a half-turn motion can be mirrored. Floating point is not modelled. |
| C287 The dependencies a package declares are the ones installed with it | partial | Case analysis of the first '@' and the prefixes; induction over the list of dependencies. | partial: proved for names without a scope whose requirement can be read; scoped names and unreadable requirements make the dependency disappear without a word, and the metadata endpoint brings in dependencies for development |
| C288 pip is asked for the versions the dependency allows | partial | The text of a requirement is cut at its commas and each piece read back as a clause; comparison of the two meanings by case analysis. | partial: proved for lower and upper bounds, full exact versions, wildcards and any version; every requirement with a caret or a tilde is refused by pip, and comparators with fewer numbers mean something else. The semver crate and pip are modelled from their documentation. |
| C289 `horus msg hash` shows the hash the program compares | partial | Each written line is trimmed and parsed back to its field; induction over the lines of a struct and over the items of a file; the two hash loops are both a left fold over the same bytes. | partial: proved for files written in the usual way (one line to a field, types spelt as rustc prints them, no braces in comments); four ways of writing a struct are misread. Names and white space are ASCII; the search for the directories, module names and documentation are not modelled. |
| C290 A wrong manifest is reported where it is wrong | partial | Text before a place is cut into whole lines and a part; sizes and counts by induction; the search by induction on the steps left. | partial: lines are always right; columns count bytes, and are right as columns of characters exactly when only ASCII stands before the place on its line; the manifest is looked for only nine directories up. The toml crate, which finds the error, is not modelled; that an offset lies between characters is assumed of it. |
| C291 A project is built as the same language everywhere | partial | Membership in the lists is reduced to the presence of names by case analysis; the main file is shown to be one of the names. | partial: the language run is always among those seen, and deploy takes the same one exactly when nothing of a language earlier in the order Rust, Python, C++ is there. The file system is given by the names in three directories; `horus run` is taken without a file argument and in the project's directory. |
| C292 `horus fmt --check` and `horus lint` end well only if the code is in order | partial | The worst of the exit codes is zero only if all are; the walk over the tree by mutual induction against a relation saying where a file lies; the arguments by cases on the tool. | partial: proved for the tools that are run; a language whose tool is not installed is passed over and the command still ends well. How the tools end is a parameter; threads of the runner that panic and links between directories are left out. |
| C293 `horus blackbox` shows exactly the events asked for, also while they are being written | partial | Filters by cases against a separate description; the follower by an invariant over the buffered writer: the file ends at the end of a line, or the next byte to come is the missing line feed. | partial: the filters and the follower between write calls are proved in full; a follower whose read falls inside one write loses the record (torn_read), `--tick` is ignored with `--follow` (follow_asked_partial is for no `--tick`), and `--clear` blinds a running recorder (clear_blinds). Lower-casing and number parsing are parameters; details, colours and the search for the directory are left out. |
| C294 `horus launch --status` lists the launches that run and `--stop` stops the one named | partial | Invariant over histories: every running launch is named by its file, and a file names no process but its own launcher; discovery by cases on the first matching record. | partial: status_exact_partial and stop_reaches_partial suppose that no two running launches share a session name and that process numbers are not given out again; stop_dead, same_name, number_reused and foreign_scheduler show what happens otherwise. Writing or removing a file is one step; delivery of the stop command is left out. |
| C295 `horus check` reports exactly the Python packages a program needs and lacks | partial | Induction over the lines; text lemmas on the first word, the first dot and the first comma. | partial: missing_partial supposes that every import statement names one module and takes the standard library to be the modules the check lists; rest_unseen and library_missing show what happens otherwise. White space and letters are ASCII; pip and cargo's directory are parameters. |
| C296 Building an installed package leaves its cargo configuration as it was | partial | Effects as a list that may be cut anywhere; induction over histories of runs. | partial: clean_partial supposes that no run is killed or fails to write and that the package has no empty .cargo directory; killed_stays, half_written and empty_removed show what happens otherwise. What cargo does, and a failure to remove the file, are left out. |
| C297 A package is installed from the place it belongs to | partial | Case analysis of the order of requests; text lemmas on encoding and on the path of an address. | partial: detect_partial supposes that all servers answer truly; outage_shadow and unasked show what happens otherwise. Servers are functions of the path asked for. |
| C298 `horus run` of a C++ project starts the program just built | partial | Programs carry the number of their build; induction over histories. | partial: last_run_partial is for generators with one configuration, last_run_multi_partial supposes that nothing else has the target's name; stale_debug, directory_run and other_started show what happens otherwise. Where cmake writes the program is an assumption of the model. |
| C299 System packages are installed only with consent, and exactly the missing ones | partial | Membership in the filtered list of dependencies; cases on the variable and the answer. | partial: consent is proved in full; the packages are those of the dependencies looked at, and table_skipped and removed_counts show needed ones that are left out. Letters are ASCII; the behaviour of dpkg is assumed. |
| C30 Single-producer single-consumer topics are exact FIFO | partial | `Ring/Spsc`: one transition per shared-memory access, any interleaving; inductive invariant, refinement to a queue | FIFO, losslessness and untorn values hold; a refused send only implies half a ring unread, not a full one (spsc_send_fails_early) |
| C300 Building a C++ project keeps the link to its compile commands right and destroys no file | partial | Induction over histories of builds. | partial: own_kept_partial supposes that no build writes compile commands; own_lost shows that otherwise the project's own file is lost. The second half fails in the code. |
| C301 `horus test` succeeds only if the project's tests did, and runs them as asked | partial | Case analysis of the three runners; induction over the chain that ends at the first failure. | partial: sim_partial leaves out ctest, and cpp_real shows that C++ tests run with real drivers; nothing_green shows a success without a test run. Detection of languages is in Verif/Build/Langs.lean; options that are only passed on are left out. |
| C31 Multi-producer topics deliver every accepted message exactly once | proved | `Ring/Mpsc`, `MpscOne`: the same for any number of producers | crashed_producer_blocks and spurious_full record limits: a producer dying mid-write blocks the topic, and a send can be refused on an empty ring |
| C32 Competing consumers never receive the same message twice | partial | `Ring/Spmc`: the same for any number of consumers | positions are claimed once and in order; the value is right unless the slot is overwritten between claim and copy, which happens (delivered_twice, torn_read); no topology selects this mode |
| C33 Broadcast readers never return torn or stale data | proved | `Ring/Broadcast`: sequence-checked slots, word-wise copies, any number of readers | one publisher as stated; two_publishers_torn shows the hypothesis is needed |
| C34 Participant accounting is exact | proved | `Topic`: header functions on a participant table, layout binding, capacity choice, mode selection, migration; invariants over every call history | calls modelled as atomic; slow_participant_uncounted and stale_handle_refreshes_other record that leases of slow but live participants lapse |
| C35 A late or resynced subscriber never reads beyond or re-reads | proved | `Topic`: header functions on a participant table, layout binding, capacity choice, mode selection, migration; invariants over every call history | the skipping of unread messages by a resync is C69 |
| C36 Layout binding admits one layout per topic | proved | `Topic`: header functions on a participant table, layout binding, capacity choice, mode selection, migration; invariants over every call history | a layout hash of 0 states no layout |
| C37 Auto-sized rings are valid | partial | `Topic`: header functions on a participant table, layout binding, capacity choice, mode selection, migration; invariants over every call history | holds for requested capacities up to 2^31; larger ones pass the argument check and break it |
| C38 Fan-out delivers each publisher's stream in order to every subscriber | proved | `Fanout`: matrix of per-pair rings, endpoint claim with pids and locks, layout arithmetic; invariants over every interleaving | limits recorded: the missed count can be too high (missed_overcounted), a publisher dying inside a send blocks a full ring (dead_writer_blocks_ring), messages unread when a publisher leaves wait for the slot's next owner (departed_publisher_messages) |
| C39 The transport always fits the participants | proved | `Topic`: header functions on a participant table, layout binding, capacity choice, mode selection, migration; invariants over every call history | the selected protocol fits the counted participants |
| C40 Tensor slots are never shared by two live tensors | partial | `Pool`: slot array, free list, bump allocator, one transition per atomic access, any number of threads; invariant over every interleaving | holds for every interleaving as long as no slot of a dead process is reclaimed and handles are released once; witnesses show that reclaiming breaks exclusiveness (failed_alloc_double_allocation) and that a crash inside a pop loses a slot (crash_in_pop_leaks) |
| C41 Live tensors never overlap in memory | partial | `Pool`: slot array, free list, bump allocator, one transition per atomic access, any number of threads; invariant over every interleaving | same regime as C40; reclaiming a dead owner's slot takes a tensor other processes still use (reclaim_takes_shared_tensor) |
| C42 Stale tensor descriptors are powerless | partial | `Pool`: slot array, free list, bump allocator, one transition per atomic access, any number of threads; invariant over every interleaving | a stale descriptor seen before the check is refused; the check and the decrement are not atomic, so a release racing with reuse frees the newcomer (stale_release_frees_newcomer) |
| C43 Freed tensor memory does not leak to the next owner | partial | `Pool`: slot array, free list, bump allocator, one transition per atomic access, any number of threads; invariant over every interleaving | false for slots reclaimed from dead processes (reclaimed_memory_not_zero) |
| C44 Tensor views stay inside their parent | partial | `Pool/Shape`: strides, slices, reshapes; arithmetic on index sets | holds for shapes of at most eight dimensions; a reshape to more is accepted and loses elements (nine_dims_lose_elements) |
| C50 Execution order respects data dependencies | proved | `Sched/Graph`: Kahn levels and order tiers; partition, edge order, cycle characterisation | also for what is executed: sequentially and by the parallel executor. chains_split_dependent_nodes records that the grouping of real-time nodes into chains ignores dependencies |
| C51 Explicit-order tiers respect priorities | proved | `Sched/Graph`: Kahn levels and order tiers; partition, edge order, cycle characterisation | nothing |
| C52 Failure policies act as configured | proved | `Sched/Failure`: failure handlers as state machines; counting over every history | restart_exact for fewer than 2^32 failures in a row: with max_restarts = 2^32-1 the counter wraps and the failure is never fatal (largest_limit_never_fatal); recording a failure panics exactly when the end of the wait lies beyond the clock's range (failure_panics_iff) |
| C53 Emergency stop is latched and propagates once | partial | `Safety/Latch`: per-access interleaving model of the e-stop latch; invariants over every schedule | the latch and the announcement hold for every interleaving; the reported SafetyState can be overwritten by a later safe-state request (safe_state_hides_stop), and the external hook reaches only the monitor that installed it last |
| C54 Graduated watchdog severities are monotone and exact | partial | `Safety/Monitor`, `LadderProps`, `RateProps`, `WatchdogProps`: thresholds and counters; exact characterisation over every tick history | exact for timeouts below 2^64 ns; longer ones are truncated (huge_timeout_truncated); elapsed time is taken from the wall clock, so a clock step looks like a hang (clock_step_is_critical) |
| C55 Degradation ladder is obeyed | partial | `Safety/Monitor`, `LadderProps`, `RateProps`, `WatchdogProps`: thresholds and counters; exact characterisation over every tick history | the ladder obeys the count it is given; the count is of consecutive misses only on real-time threads whose budget separates good from late ticks. On the main thread it is the total of all misses (main_killed_iff_total), and late ticks count towards recovery (missed_tick_counts_as_recovery) |
| C56 Critical-node violations always stop the robot | proved | `Safety/Latch`: per-access interleaving model of the e-stop latch; invariants over every schedule | nothing |
| C57 The flight recorder keeps exactly the latest events | partial | `Blackbox`: ring, write-ahead log, buffered writer, snapshot; crash point = any prefix of the written bytes | within one run exact; a line torn by a crash swallows the first record of the next run, and a loaded recording may exceed the configured capacity |
| C60 Action servers respect their concurrency limit | partial | `Actions`: the server state machine; invariants over every history of calls and clock readings | holds for RejectNew and Queue, and for PreemptOld without a goal timeout; fails for PreemptOld with a timeout and for Priority (witnesses) |
| C61 Every goal gets exactly one terminal status | partial | `Actions`: the server state machine; invariants over every history of calls and clock readings | exact accounting for every history; with a goal timeout a given-up goal that later ends is reported twice (two_terminals); goals in flight at shutdown get no status (stop_loses_goal) |
| C62 Cancel requests terminate and reach exactly their goals | partial | `Actions`: the server state machine; invariants over every history of calls and clock readings | a goal submitted under the nil id makes cancel-all recurse for ever (nil_goal_hangs_server); otherwise every cancel returns with exactly its effect |
| C63 A service caller gets its own answer | partial | `Service`: clients, server, shared topics as a step system; invariant on request ids over every interleaving | holds when process ids of the processes sharing the memory differ and fewer than 2^32 calls were made; two containers with the same pid get each other's answers (shared_pid_wrong_answer) |
| C64 Parameter updates are validated and versioned | partial | `Params`: the store call by call and split at its lock releases; validation against an independent predicate | optimistic locking holds for every interleaving of versioned updates; a plain set interleaved with a versioned one is lost (plain_set_is_lost); remove/load/reset bypass read-only and versions; no public function installs metadata, so rules and read-only flags never apply outside tests |
| C65 The shared log keeps the latest entries and never drops one for size | partial | `LogBuf`: byte-level entries, the shared ring with claim/write/mark steps; drain and replication loops | every entry fits and reads back; exact contents in one process and for any interleaving of processes that is not overtaken by a whole ring and has no write in progress; the negative theorems show what a reader may see otherwise |
| C66 A lost acknowledgement is repaired | partial | `Reliability`, `Replicator`: sequence map, latch table, resend decisions; monotonicity and size invariants over every history, witnesses at wrap and table cap | negated: the resend is dropped as a duplicate before it is acknowledged |
| C67 Tables keyed by network input are bounded | partial | `Reliability`, `Replicator`: sequence map, latch table, resend decisions; monotonicity and size invariants over every history, witnesses at wrap and table cap | the peer, duplicate, reassembly and flow tables are bounded; the heartbeat table is not |
| C68 System messages are never suppressed as duplicates | proved | `Reliability`, `Replicator`: sequence map, latch table, resend decisions; monotonicity and size invariants over every history, witnesses at wrap and table cap | nothing |
| C69 Migration loses no unread message | partial | `Topic`: header functions on a participant table, layout binding, capacity choice, mode selection, migration; invariants over every call history | true with a single subscriber; with several, an unfortunate interleaving skips unread messages uncounted |
| C70 Fan-out endpoint slots are owned exclusively and recovered after crashes | partial | `Fanout`: matrix of per-pair rings, endpoint claim with pids and locks, layout arithmetic; invariants over every interleaving | exclusivity holds under the file-lock contract; recovery after crashes is false for a process that gets a dead one's id (recycled_pid_locked_out) |
| C71 Fan-out memory layout is disjoint and in bounds | partial | `Fanout`: matrix of per-pair rings, endpoint claim with pids and locks, layout arithmetic; invariants over every interleaving | a plain-data value above 4096 bytes does not fit its slot (large_value_overruns) |
| C72 The parallel executor ticks every due node exactly once and returns | proved | `Sched/Dispatch`: the worker pool step by step, any number of workers and schedules | every interleaving; termination as a bound on the number of rounds in which each worker moves at least twice |
| C73 .order() is respected by the parallel executor | partial | `Sched/Dispatch`: the worker pool step by step, any number of workers and schedules | holds when every tier strictly between has a due node; otherwise false (parallel_order_violated) |
| C74 Timing report is exact | proved | `Safety/Monitor`, `LadderProps`, `RateProps`, `WatchdogProps`: thresholds and counters; exact characterisation over every tick history | nothing |
| C75 The flight recorder can be read back after shutdown | partial | `Blackbox`: ring, write-ahead log, buffered writer, snapshot; crash point = any prefix of the written bytes | holds for an uninterrupted save; a crash during the save loses the previous snapshot, and the offline reader refuses the saved format |
| C76 Watching a topic shows every message or says how many were lost | partial | `ShmNet`: writer and reader of a mapped topic file with explicit bounds and panics; every access in range, poll loop invariant | one poll is exact; across polls messages beyond the budget are skipped (rest_never_returned) and a reader a ring plus its budget behind stalls (echo_stalls) |
| C77 Remote hosts are listed exactly while they broadcast | partial | `Presence`: packet parser, file name sanitiser, record life cycle on a file map; invariants over every packet and clock history | a local node whose name begins with remote_ or bridged_ is not listed; while broadcasting and on disk the record is exact |
| C78 A queued action goal starts as soon as a slot is free | partial | `Actions`: the server state machine; invariants over every history of calls and clock readings | with a goal timeout a freed slot is not given to the queue (queue_stuck) |
| C79 A goal that overruns is asked to stop, then given up, and never without warning | proved | `Actions`: the server state machine; invariants over every history of calls and clock readings | decision of check_timeouts for every goal state and time, and the invariant over all histories |
| C80 Every client of a running service is answered | partial | `Service`: clients, server, shared topics as a step system; invariant on request ids over every interleaving | true for the first 64 client topics; the cache never evicts so every later client is executed but never answered |
| C81 A resilient call retries only transient failures, at most the configured number of times | proved | `Service`: clients, server, shared topics as a step system; invariant on request ids over every interleaving | retry_executes_again records that retries are separate requests: at-least-once execution |
| C82 Parameter sources override key by key and never lose a default | partial | `Params`: the store call by call and split at its lock releases; validation against an independent predicate | layering is exact for every file and environment; launch parameters whose name has a dash or upper-case letter set another parameter |
| C83 Resetting parameters restores the built-in values | partial | `Params`: the store call by call and split at its lock releases; validation against an independent predicate | exact result of every reset; a refused built-in leaves the store without the rest (refused_reset_empties) |
| C84 Draining the log writes each entry exactly once | partial | `LogBuf`: byte-level entries, the shared ring with claim/write/mark steps; drain and replication loops | exactly once when nothing is pushed between the two reads of a pass and the drain is never a whole ring behind; duplicates and losses otherwise are proved |
| C85 Replicated log entries arrive as logged | partial | `LogBuf`: byte-level entries, the shared ring with claim/write/mark steps; drain and replication loops | codec exact; a burst of 188 or more full-length entries between polls does not fit a datagram and is lost |
| C86 A handle that sends and receives is an ordinary participant | partial | `Handle`: several handles of one topic with cached and shared head/tail; one transition per access | false of the code for a handle that has both sent and received: it neither reaches nor hears the other handles (both_mute, both_deaf) and can overwrite another publisher's message (both_overwrites). For handles that keep to one role the delivery theorem is subscriber_stream |
| C87 A handle talking to itself is a queue | partial | `Handle`: several handles of one topic with cached and shared head/tail; one transition per access | exact queue while no send finds the ring full; overflowing loses and reorders waiting messages |
| C88 A slow subscriber is never cut off | partial | `Handle`: several handles of one topic with cached and shared head/tail; one transition per access | what is received is a gapless stretch and a subscriber is served exactly while it is at most one ring behind; one that falls further behind is cut off for good |
| C89 Serialized messages of any size arrive unchanged and in order, and their storage is reclaimed | partial | `Serde`: byte-level slots, spill pool, stride growth; any number of handles, any interleaving | exact order and content for one subscriber handle and any publishers while the slot size is not grown, and full reclamation with one publisher. False of the code: with several publishers a send refused between storing and claiming leaks its pool slot for good, and a second subscriber handle of the same thread receives zeros |
| C90 A message that cannot be decoded does not stop or corrupt the stream | partial | `Serde`: byte-level slots, spill pool, stride growth; any number of handles, any interleaving | false of the code: an undecodable message in a slot blocks the subscriber for good, an undecodable large one is delivered as zeros on the second receive; what holds is the stream of decodable messages (serde_fifo) |
| C91 Growing the slot size keeps subscribers working | partial | `Serde`: byte-level slots, spill pool, stride growth; any number of handles, any interleaving | false of the code: other handles keep the old slot size, so the subscriber waits for ever or takes bytes from inside another message for one; what holds is delivery as long as no growth happens |
| C92 A recording holds exactly what the node did | partial | `Replay/RecProps`: recorder as a fold over ticks per executor class, refinement to a filter/prefix/suffix specification; byte-level bincode file and save as a sequence of system calls cut anywhere | exact for nodes ticked by the scheduler's own thread. False of the code for nodes on an executor: no outputs are recorded, compute/async/event nodes record no inputs either, and real-time/compute/async ticks are all numbered 0; with both limits set the ring stops and keeps old ticks |
| C93 A saved recording survives a crash and loads back unchanged | partial | `Replay/RecProps`: recorder as a fold over ticks per executor class, refinement to a filter/prefix/suffix specification; byte-level bincode file and save as a sequence of system calls cut anywhere | crash-safe and exact for files up to 100 MiB; larger ones are saved but never loaded, and recordings in the layout before the schema number, which the code means to accept, are refused |
| C94 Replay publishes what was recorded | partial | `Replay/RunProps`: scheduler state as far as replay touches it, any program of calls; path components over character lists | false of the code: a replayed node is never initialised, so nothing is published unless a live node of the same name was added first, the replay clock shows 0 for ever and the recorded order is lost; what is published in the same-name case is exact (replay_same_name_partial) |
| C95 The debugger goes where it is told | partial | `Replay/NavProps`: debugger commands over any history; diff characterised per reported difference | exact on recordings with increasing ticks; an after-N-ticks breakpoint never stops a run for N of 2 or more, and recordings of executor nodes (all ticks 0) cannot be stepped back |
| C96 Comparing recordings finds every difference and only differences | partial | `Replay/NavProps`: debugger commands over any history; diff characterised per reported difference | exact over the ticks both recordings span; a run cut short is reported as identical, and recordings of executor nodes are compared in their last snapshot only |
| C97 Recording names stay in their directory and are found again | partial | `Replay/RunProps`: scheduler state as far as replay touches it, any program of calls; path components over character lists | containment holds for every name; a node with an @ in its name is saved under another name than replay looks for |
| C98 A node is initialised before it is ticked or shut down, and not ticked after it was stopped | proved | `Loop/Life*`: one state machine for run, run_for, tick_once, stop, pause and the executor threads; actions interleave freely; invariants over the event log | all histories, all executors |
| C99 Every initialised node is shut down exactly once | partial | `Loop/Life*`: one state machine for run, run_for, tick_once, stop, pause and the executor threads; actions interleave freely; invariants over the event log | exactly once for a first run without kills and executor crashes; false of the code for a killed node (twice), for nodes on a crashed compute executor (never) and for programs driven by tick_once (never) |

Properties that cannot be expressed: none of the listed ones. Timing (actual latency), weak memory,
the scheduling policy of the operating system and GPU memory are outside every model.

## What is modelled, and what is not

| Area | Source modelled | Left out |
|---|---|---|
| `Wire` | horus_net wire.rs, priority.rs: packet header, in/out messages, flags | the socket |
| `Discovery`, `Guard`, `Peers` | discovery.rs, registry.rs, guard.rs, peer.rs, heartbeat.rs, `ImportConfig` of config.rs | multicast join, RTT estimate |
| `Fragment`, `Reliability`, `Replicator` | fragment.rs, reliability.rs; handle_export, process_packet, resend and ack decisions of replicator.rs | the event loop's select, interface selection, statistics |
| `Mac`, `Estop`, `NetFilter` | mac.rs, estop.rs, netfilter.rs | reading key files |
| `Optimize` | optimize/{delta,fusion,predict}.rs, flow_control.rs | spatial.rs, metrics |
| `Presence` | horus_net presence.rs, the scan of core/presence.rs | JSON text of a record beyond its fields |
| `ShmNet` | shm_writer.rs, shm_reader.rs, shm_layout.rs, read_slot of header.rs, topic echo of horus_manager | file opening |
| `Ring` | topic/dispatch.rs: SpscShm, MpscShm, SpmcShm, PodShm send and receive | sequence numbers beyond 2^63 |
| `Topic` | header.rs register/lease/detect, mod.rs layout binding, capacity, resync, migration decision | creation race (wait loop) |
| `Handle` | mod.rs send/recv of a handle, both-role shortcut, epoch change | blocking variants |
| `Serde` | dispatch.rs serialized send/receive, spill, slot growth | async notification |
| `Fanout` | shm_fanout.rs, seqlock.rs | spill of large messages |
| `Pool` | memory/tensor_pool.rs, backend.rs, types/tensor.rs | GPU backends, alloc_with_timeout |
| `Sched` | dependency_graph.rs, execute_ready_dispatch and the sequential executor of scheduler/mod.rs, failure_policy.rs | thread start-up, CPU pinning |
| `Safety` | safety_monitor.rs, the per-tick calls in rt_executor.rs and scheduler/mod.rs | actual time |
| `Blackbox` | scheduling/blackbox.rs, commands/blackbox.rs reader | page cache |
| `Actions` | actions/server.rs, types.rs | feedback rate limit |
| `Service` | services/{client,server,types}.rs | payload encoding |
| `Params` | params.rs, launch parameter export of horus_manager | YAML text, audit log |
| `LogBuf` | core/log_buffer.rs, log_replication.rs | terminal output |
| `Replay` | scheduling/record_replay.rs, scheduler/recording.rs, the recording and replay parts of scheduler/mod.rs and the executors, ReplayClock | JSON scheduler file text, watch values beyond their bytes |
| `Loop` | the run loop, lifecycle, pause, stop, init retry, filter, rate gates, deterministic time, load shedding and RT partition of scheduler/mod.rs and the executors; event notifiers; subscription freshness | wall-clock time other than as an arbitrary sequence; signals; thread creation failures |
| `Region` | ShmRegion open/grow/close of horus_sys/src/shm/linux.rs, the header wait and type check of topic/mod.rs, stale-file sweep, region and topic names, namespaces, directory hardening and namespace cleanup of shm/mod.rs | macOS and Windows back ends; memory ordering of the header flag; disk full |
| `Msg` | layout computation and package checks of `horus msg gen`, `.hmsg` parser after the tokenizer, canonical text of layout hashes, struct printer of `horus topic echo` (horus_manager msgspec/, commands/msg.rs, commands/pod_decode.rs) | the tokenizer; error recovery and messages; text of the generated code other than types and asserted layouts; printing of floats |
| `Actions/Client` | ActionClient: registration, pump, waiting, sweep, counters and callbacks (actions/client.rs:62-517, 655-679, 760-905) | topics are unbounded queues; a pump takes no time; timeouts of waiters; cancel requests; builder and serialization |
| `Percept/*` | occupancy grids, cost maps, images, depth images, point clouds: cell/pixel/point access, bulk operations, coordinate transforms, regions, frame names (memory/{occupancy_grid,costmap,image,depth_image,pointcloud}.rs and types/*_descriptor.rs, image_encoding.rs) | floats are exact rationals or opaque bytes; GPU buffers and copies; concurrent writers of one buffer; depth statistics; field metadata of clouds |
| `Time/*` | core/tick_context.rs, core/clock.rs, core/timer.rs (Rate), core/duration_ext.rs (Frequency), horus/src/time.rs; the places in the scheduler and executors that install and clear the context; the replay time line | the generator itself; 64-bit hash of names; f64 rounding; a scheduler run from inside a tick |
| `Sched/Late`, `Build/*` | scheduler/mod.rs: add_configured_internal, tick_once and the graph rebuild rule, finalize_config, adjust_tick_period_for_node_rates; topic/mod.rs: TopicNodeRegistry; node_builder.rs; presence.rs: names | the same rebuild rule inside run() (identical code, scheduler/mod.rs:5055-5061); unregister (no caller); add_replay; log lines |
| `Handle/Wait`, `Handle/Peek` | topic/mod.rs: send with its retries, send_blocking, has_message, pending_count, read_latest, the message and drop counters | kind and length of the pauses; verbose handles; serialised messages that never fit; peeking on the PodShm broadcast ring |
| `Pkg/*` | dependency resolution, lock file, atomic saves, plugin lookup and gate, extraction, copy, staging and swap, package checks and names | network, archive format and compression, file modes, hash and signature algorithms (arbitrary functions), pre-compilation, Windows and git/path sources |
| `Pool/Keep` | pool-backed messages: reference counts, topic keep-alive, send, try_send, receive | slot layout (see `Pool/*`), device memory, descriptors of other types |
| `Launch/*` | launch order, starting, restart loop, control commands, e-stop, session rows, shutdown | command lines and environment variables, log files, discovery of schedulers, grandchildren |
| `Util/*` | edit distance and suggestions, retrying, throttled logging | f64 rounding of back-offs, where log lines go |
| `Msg/Text`, `Msg/Generic` | text fields, log cutting, generic message, health messages | MessagePack and JSON themselves |
| `Drivers/*` | exec driver, hardware loading, typed parameters | TOML parsing, f32/f64 parameters, factories themselves |
| `Sched/Registry`, `Util/Telemetry`, `Time/Rate` | live registry, telemetry, rate limiter | torn reads of the registry, HTTP itself, f64 rounding |
| `Msg/Geometry`, `Loop/Account`, `Sched/Profiler`, `Pkg/Sandbox` | geometry helpers, tick counters and health, profiler, plugin sandbox | f64 rounding (except for the hang), resource limits beyond CPU, the kernel's BPF checker |
| `Pkg/Clean`, `Build/Hooks`, `Util/Shell`, `Build/Deploy`, `Build/Workspace` | horus clean, hooks, quoting, deploy, workspaces | the shell, rsync, ssh and cargo themselves, canonicalisation of paths, the interactive selector |
| `Build/NativeSync`, `Build/PipSync`, `Wire/Endian` | the cargo, pip and conan proxies, cross-endian payloads | cargo, pip and conan themselves, TOML syntax, floating-point bit patterns |
| `Sched/Affinity`, `Ring/Copy` | pinning of real-time threads, the vectorised copy | the kernel's inheritance of affinity, `core_affinity` reading the thread's mask, `available_parallelism` without CPU quotas, the vector instructions |
| `Ffi/Action`, `Ffi/Service`, `Ffi/Builder` | C++ actions, services and node builder | the C++ language itself (static tables per translation unit, exceptions crossing into Rust), JSON syntax, f64 rounding of rates |
| `Py/Node`, `Py/Sched` | Python nodes, scheduler, receiving and untyped topics | the interpreter and its lock, MessagePack, JSON and pythonize libraries, numpy values |
| `Pool/Wait` | waiting for a slot | memory ordering weaker than sequential consistency, reclaiming of dead processes' slots |
| `Replicator/EventLoop` | the network thread's event loop (Linux) | kqueue, size of the kernel's socket buffer |
| `Guard/Lifecycle` | the topic lifecycle hook between horus_core and horus_net | type hashes and sizes |
| `Replay/Tool`, `Replay/Prune`, `Replay/Export` | `horus record` diff, clean, delete, export, overrides | f64 rounding and reading of numbers, directory errors, JSON text, `record inject` |
| `Tf/*` | `horus tf record`, the file reader, `horus tf diff` | the transform tree (crate horus_tf, not in the repository; its contract is stated), floating point, replay timing, tuning and calibration commands |
| `Build/Source` | package source resolver with its tables | answers of the sites (parameters), Unicode lower case |
| `Util/Prefixed` | running several tools or programs | how lines of different programs mix |
| `Build/Ignore` | ignore patterns and choice of the program to run | directory listing and the glob library (parameters) |
| `Build/Lint` | unknown keys of the manifest | the TOML parser |
| `Tf/Reader` | the reader behind `horus tf` | crate horus_tf (assumption stated in the file) |
| `Peers/Timer` | the replicator's timer | socket errors |
| `Ffi/Pool` | C++ tensors and images over the pool | sharing with other processes (see Pool) |
| `Ffi/LayoutDecl`, `Ffi/LayoutTable`, `Ffi/Layout` | message structs in both languages | the compilers' adherence to the C layout rule; crate horus_robotics |
| `Msg/Emit` | names and field types of the generated bindings | the Rust and C++ compilers; serde's array limit and the keyword list are taken from their documentation |
| `Sched/NoAlloc` | allocation guard of `.no_alloc()` nodes | the allocator itself; unwinding out of `GlobalAlloc` is assumed to work |
| `Util/Device` | `Device` text and DLPack forms | the DLPack structs themselves |
| `Handle/Observe` | outside observer of a topic; per-handle counters | memory ordering between count and slot |
| `Build/Features` | driver and capability features of `horus run` | the registry's answers; Cargo |
| `Handle/Mock` | `MockTopic`, `TestNode` panics | locks of the mock; other test-node behaviours |
| `Topic/Pod` | `is_pod` over a grammar of types | rustc's layout, beyond sizes |
| `Py/Topic` | construction of Python topics and of a node's topics | conversion of messages; names refused by the shared-memory layer |
| `Py/View` | numpy views of pool objects; squeeze, unsqueeze | numpy itself, assumed to check only lengths and signs; GPU pools |
| `Py/Numpy` | conversion between numpy arrays and pool objects | numpy itself; torch and jax arrays; GPU arrays |
| `Pkg/Publish` | contents of the uploaded archive; removal of patch sections | compression; upload; the secret scanner's patterns |
| `Params/Cli` | the `horus param` commands | the YAML and JSON libraries; crashes inside a line |
| `Build/Imports` | reading of imports and requirements; the pip cache | pip and cargo; system packages; the user's choices |
| `Pkg/Cache` | `horus cache clean` | sizes; symbolic links into the cache from elsewhere |
| `Drivers/Urdf` | sensors in robot descriptions | other XML; the closest name suggested |
| `LogBuf/View` | `horus log` and the `log` facade | the buffers themselves (`LogBuf/Ring`); colours |
| `Build/ApiDiff` | the API comparison of `horus doc` | the extraction of the API from sources; deprecation notes, topics, the printed report |
| `Build/Migrate` | `horus migrate` | TOML parsing; `workspace`, `cmake_package`, `lang` |
| `Util/ShellRc` | `horus env --init`, `--uninstall` | fish; the generated scripts |
| `Build/RunBin` | building and starting programs in `horus run` | compilation; dependency installation; C++ |
| `Util/ErrText` | text and severity of errors with context | hints; the other error texts |
| `Discovery/Update` | which topics are exported and imported, echo between two hosts | codec, flow control, the ring itself |
| `Pool/Attach` | creating and attaching to a pool file | the wait for the creator's magic; permissions |
| `Sched/Refresh` | presence refresh of a running scheduler | floating-point rounding of the rate; one clock reading per refresh |
| `LogBuf/Attach` | sizing and sharing a log buffer among processes | torn writes (in `LogBuf`), file permissions |
| `Ffi/Text` | texts handed to C callers, typed parameters and log lines through the C interface | pointer validity, alignment, the UTF-8 check itself |
| `Build/NodeMacro` | the node! macro at section level, node names | Rust grammar inside sections, non-ASCII identifiers |
| `Service/Gateway` | the file gateway of `horus service call`, callers and servers | JSON text, the terminal output |
| `Actions/GoalFile` | the goal file of `horus action send-goal`, senders and servers | watching the result |
| `Service/CliNames` | names given to `horus service call` and `horus action send-goal` | discovery of the services |
| `Pkg/ForeignArgs` | the package managers run for registry packages and C++ projects | what the managers do |
| `Pkg/CargoEdit` | changes to `Cargo.toml` for drivers | TOML text, other sections |
| `Py/Values` | Python values on untyped topics | sets, subclasses, 32 bit floats from other senders |
| `Ffi/Handles` | lifetimes of the C++ wrapper objects and their Rust handles | exceptions thrown inside callbacks, `Tensor::pool_raw_` |
| `Ffi/Lambda` | C++ lambda nodes: typed topics and callbacks | what the message does once sent |
| `Pkg/PyPi` | recording and pinning PyPI installs | pip itself, TOML parsing |
| `Pkg/Update` | `horus update` | failing downloads, links of other workspaces |
| `Pkg/DepInstall` | installing packages with their dependencies | downloads, global target, dependencies from other sources |
| `Presence/NodeList` | what `horus node list` shows | process table scan, categories |
| `Pkg/PluginBin` | detecting and registering plugin binaries | TOML parsing, files changing between calls |
| `Pkg/Uninstall` | registering and uninstalling plugins | tracking files, terminal detection |
| `Pkg/AddDep` | adding and removing dependencies in horus.toml | drivers, build file regeneration, running apt |
| `Fanout/Spill` | large messages on multi-subscriber topics | registration during sends, crashes |
| `Guard/Config` | network settings from project file to process | non-UTF-8 variables, Unicode blanks and case, TOML parsing |
| `Region/TopicList` | listing topics and its side effects | unreadable directories, descriptions that do not parse, process identifiers used again |
| `Build/Members` | generated files of a workspace, running a member | text of versions and URLs, patches, cargo beyond the tables, installing registry packages |
| `Replay/Inject` | choosing recordings, runs, loop and signals of `horus record inject` | speed and timing, what a tick publishes (`Replay/Model`), the terminal signalling the script |
| `Build/Proxy` | arguments given to cargo and cmake, finding project and tool | exit codes, environment, generation and sync (C186) |
| `Pkg/LockCheck` | `horus lock`, `--check`, the check before a build | reading the version out of the tools' output, TOML |
| `Build/SysDeps` | system packages needed by detected features | headings and layout of the report |
| `Pkg/SelfUpdate` | `horus self update` | re-registration of the reinstalled plugin, the download itself |
| `LogBuf/Attribute` | node context of log lines, console form, level settings | colours of the console |
| `Sched/Owner` | topic ownership: registry of publishers and receivers | types shown for a topic beyond the first registration |
| `Topic/Migrate` | concurrent backend changes | weak memory, spinning and back-off, the bound of five attempts |
| `Topic/Follow` | handles following backend changes | read positions (see `Handle`), growth of the region |
| `Topic/Join` | registration of threads, step by step | the field stores of a claimed slot one by one, wrapping counters |
| `Serde/Single` | topics with one publisher and serialised messages | spilling and growing (see `Serde`), partial writes within one send |
| `Build/New` | `horus new` and the manifest name rules | template texts, generated `.horus/Cargo.toml`, the list of workspaces |
| `Actions/Locks` | the locks of the action client and what its callbacks may call | the topics' own locks, `build` before the client is shared, panics in callbacks |
| `Params/Locks` | the locks of the runtime parameters and what change callbacks may call | lock poisoning after a panic |
| `Safety/Locks` | the locks of the safety monitor and of the stop hooks | the scheduler's own locks, standard error |
| `Py/Gil` | the interpreter lock and the locks of the Python bindings | lock poisoning, the wait of `run` for its threads, locks of the core |
| `Pkg/PluginList` | listing, finding, verifying and searching plugins | the plugin index itself (network), printing |
| `Pkg/CleanRun` | the whole of `horus clean`: its parts, flags, dry run and JSON | sizes and counts that are printed |
| Verif/Tf/Calib.lean | calibration from point pairs (commands/tf.rs) | reading the file, printing, floating point |
| Verif/Tf/HandEye.lean | hand-eye calibration (commands/tf.rs) | reading the files, printing the answer as a quaternion and angles, the residual, floating point |
| Verif/Pkg/DepSpec.lean | texts of dependencies and the registry's answers (dependency_resolver.rs, registry/helpers.rs) | the grammar of version requirements, the network, reading a package directory |
| Verif/Pkg/PyReq.lean | version requirements for pip (registry/install.rs) | pre-releases, epochs and other version forms of PyPI |
| Verif/Msg/Scan.lean | finding messages in Rust source (commands/msg.rs) | directories searched, module names, documentation, non-ASCII names |
| Verif/Build/ManPlace.lean | finding horus.toml and placing its errors (manifest.rs) | the toml crate, the wording of errors |
| Verif/Build/Langs.lean | detecting a project's languages (manifest.rs, dispatch.rs, commands/run) | the tools chosen for each language |
| Verif/Build/FmtLint.lean | horus fmt and horus lint (commands/fmt.rs, lint.rs, dispatch.rs, run_with_prefix.rs) | the tools themselves, prefixing of output, --fix |
| Verif/Blackbox/View.lean | horus blackbox: filters, --last, --follow, --clear (commands/blackbox.rs) | text of details, colours, the search for the directory |
| Verif/Launch/Registry.lean | Sessions of horus launch: files, --status, --stop, scheduler discovery (commands/launch.rs) | the launch itself (Verif/Launch/Watch.lean), delivery of the stop command |
| Verif/Build/CheckPy.lean | Python packages looked up by horus check (commands/check.rs) | pip, the rest of horus check |
| Verif/Pkg/Precompile.lean | Building installed packages from source: overrides for the horus crates, programs copied (registry/helpers.rs) | cargo itself, copying of libraries |
| Verif/Pkg/Source.lean | Choice of the place a package is installed from (registry/install.rs) | the servers, the installation itself (Verif/Pkg/Install.lean) |
| Verif/Build/CppBinary.lean | The program horus run starts for a C++ project (commands/run/run_cpp.rs) | cmake, system dependencies, generated message libraries |
| Verif/Build/AptDeps.lean | System packages of C++ projects (commands/run/run_cpp.rs, cmake_gen.rs) | apt, dpkg, the table of known libraries |
| Verif/Build/CompileCommands.lean | The link compile_commands.json of C++ projects (commands/run/run_cpp.rs) | cmake |
| Verif/Build/TestCmd.lean | horus test: runners started, drivers, result (commands/test.rs) | cargo, pytest and ctest themselves, needs_rebuild |

## Disagreements between the code and what a user relies on

Each is a theorem (named in `MANIFEST.json`) with a concrete execution of the model.

* Network. Payloads above 1400 bytes are never delivered; a lost acknowledgement is never repaired
  (the resend is dropped as a duplicate before it is acknowledged); deltas are sent but never applied;
  the last message of a fusion window waits for further traffic; flow control can throttle for ever;
  the threshold 1 of failure detection gives false alarms; a complete set of fragments can be
  delivered twice; names over 63 bytes are conflated; the heartbeat table is unbounded.
* Topics. A send may be refused with half the ring free; two publishers on the broadcast ring tear
  messages; competing consumers can read an overwritten slot; a producer dying inside a send blocks
  the topic; a subscriber a ring behind on an in-order topic is cut off for good; a handle that both
  sends and receives hears and reaches nobody; closing one of two subscriber handles closes the
  import of both.
* Serialized topics. An undecodable message blocks the subscriber, an undecodable large one becomes
  zeros; a second subscriber handle of one thread receives zeros for large messages; growing the slot
  size strands other handles or makes them take bytes from inside a message; a refused send leaks its
  storage.
* Fan-out. A process that gets a dead process's id is locked out of its slot; a plain value above
  4096 bytes overruns its slot.
* Tensor pool. Reclaiming slots of dead processes breaks exclusiveness, sharing and zeroing; a
  release racing with reuse frees the newcomer; reshaping to more than eight dimensions loses elements.
* Scheduler and safety. `.order()` is not respected by the parallel executor when a tier between has no
  due node; on the main thread the ladder counts all misses, not consecutive ones; a safe-state request
  hides an emergency stop in the reported state; elapsed time for the watchdog is wall-clock time.
* Flight recorder. A line torn by a crash swallows the next run's first record; a crash during the save
  loses the previous snapshot; the offline reader refuses the saved format.
* Actions. PreemptOld with a timeout and Priority exceed the concurrency limit; a given-up goal is
  reported twice; a goal with the nil id makes cancel-all recurse for ever; a freed slot is not given
  to the queue after a timeout.
* Services. Two processes with one pid get each other's answers; the 65th client is never answered;
  retries execute the handler again.
* Parameters. A plain set between the two halves of a versioned set is lost; remove, load and reset
  bypass read-only flags and versions; a refused reset empties the store; no public function
  installs metadata, so rules never apply; launch parameters with a dash set another parameter.
* Log. A reader may see stale, torn or repaired entries while writers are active; the drain may write
  twice or lose; 188 full-length entries between two polls are lost in replication.
* Recording and replay. Executor nodes record no outputs and number every tick 0; replay publishes
  nothing unless a live node of the same name exists; its clock stays at 0 and the recorded order is
  lost; recordings above 100 MiB are saved but never loaded; a run cut short diffs as identical; a node
  with an `@` in its name is not found again.
* A scheduler can be run once: `running` is never set again, later runs tick nothing and shut the
  nodes down again. A killed node is shut down twice; nodes of a crashed executor never.
* Pausing, the node filter and init retry reach only part of the executors (C102-C104).
* Rates: an RT node may run 1.5 times as fast as configured, a compute node at the loop rate runs at
  half of it; deterministic time advances one period per graph step instead of one per round; a
  compute pool with only background nodes starves for ever after one overrun.
* Each RT node has its own thread, so a declared dependency between two RT nodes orders nothing.
* Only `send` counts and announces a message. `try_send` and `send_blocking` deliver it without
  triggering event nodes and without refreshing subscriptions; of two event nodes on one topic only
  the last one registered is triggered; a late first freshness check raises a false alarm.
* A topic file is opened, locked and unlinked in separate system calls. An open that overlaps the last
  close or a sweep ends on an unlinked file and later closes delete the live one
  (`open_races_last_close`, `open_races_sweep`, `orphan_close_deletes_live_file`,
  `sweep_removes_reopened_file`). horus_net/shm_writer.rs opens topics without the lock at all.
* Creator, joiner and `grow` set the file length after a separate check and can shrink a file others
  have mapped (`creator_truncates_joiner`, `joiner_truncates_joiner`, `grow_truncates`).
* A joiner that had to wait for the header is not type-checked, a generic creator admits every type,
  and type names are compared on 31 characters. The stale-header branch of the open is dead code: a
  file with an owner always has a blank header (`owner_header_blank`).
* After a creator crashed before writing the header, joiners whose waits overlap keep the file alive
  and none of them ever opens the topic (`overlapping_joiners_stuck`).
* Topic `a//b` is topic `a/b`; the bookkeeping file of topic `imu` overwrites topic `imu.meta`; topics
  `arm.cmd` and `arm_cmd` share a bookkeeping file; namespaces `robot-1` and `robot_1` are one.
* Namespace cleanup looks only at the session leader, so it deletes the topics of processes that
  outlive it (`orphaned_session_loses_topics`).
* `horus topic echo` prints any `[u8; N]` that begins with a zero as the empty string, whatever follows
  (`zero_led_bytes_hidden`), and reads fields after a `_pad` field from the wrong offset when the sizes
  happen to agree (`padding_field_misread`).
* A `.hmsg` file cut off after a doc comment, or ending in an attribute, is accepted and the unfinished
  message is left out (`cut_message_dropped`, `attributes_dropped`).
* Nothing fills in the path of a referenced message (parse.rs:494 speaks of a `resolve` that does not
  exist), so its type is rendered as nothing in generated Rust and in the hashed text
  (`referenced_type_not_hashed`, `same_hash_other_layout`).
- C121: `send_goal_with_priority` sends the request before it registers the goal, so an answer drained by
  another thread in between is dropped and the waiter waits for ever (`answer_before_register_lost`). A
  waiter that looks while another thread is between the status and the result topics of a pump is told
  "Missing result", or `None` by `await_result` (`missing_result_mid_pump`).
- C122: the result of a goal removes it from the map before `tick` counts the goals in the map, so
  `goals_succeeded` of a client node stays 0 for ever (`successes_never_counted`); rejected goals are
  never counted as failed (`rejected_never_counted`).
- C123: the feedback callback of `await_result_with_feedback` is documented as called for each new
  message; it is called for the last message of each pump only (`waiter_misses_feedback`).
- C124/C125: the cell index is computed in 32 bits, so a grid of more than 2^32 cells has pairs of cells that
  share one byte (`big_grid_cells_alias`); `fill` stores values outside -1..100 (`fill_not_clamped`).
- C125: `apply_from_occupancy` also erases costs set by hand (`apply_overwrites_costs`), and until it is
  called a fully occupied cell counts as traversable (`occupied_traversable_until_applied`).
- C126: both transforms ignore `origin_theta` although it can be set (`orientation_ignored`); a point within
  a millionth of a cell of an upper edge is given the next cell, or none in the last column
  (`edge_point_wrong_cell`); a map with a side of 2^31 cells or more gives no point a cell
  (`huge_map_no_cells`); resolutions below a nanometre break the round trip.
- C127: rows of 4 GiB or more wrap the recorded row length, so rows share bytes (`wide_image_rows_alias`). An
  image wrapped from a YUV 4:2:2 tensor is taken for three-byte RGB (`inferred_pixel_size`).
- C131: a frame name cut inside a character reads back as the empty name (`frame_cut_in_character_lost`).
- C132: outside ticks `now()` counts from the first such call on the thread, inside ticks from the creation of
  the scheduler's clock, so `since` of a stamp taken in `init` is wrong (`init_stamp_other_clock`).
  `rng(|r| … now() …)` panics inside a tick and works outside (`rng_closure_asking_panics`).
- C133: `rng` is documented as system entropy in normal mode; it is seeded from the tick number there too
  (`no_entropy_in_ticks`).
- C134: in a parallel round every node's start time is taken before the first node runs, so a node late in a
  pipeline is told its budget is gone when it starts (`round_budget_charges_predecessors`); on the virtual clock
  the budget never shrinks and the documented anytime loop never ends (`anytime_hangs_on_virtual_clock`).
- C135/C136: virtual and replay clocks advance once per graph step, not once per tick
  (`replay_clock_k_times_fast`, `pipeline_integrates_too_slowly`), and deterministic runs ignore node rates while
  `dt()` still is `1/rate` (`own_rate_integrates_too_fast`).
- C137: `Rate::actual_hz` is computed from the time between the start of a cycle and the call of `sleep`, that is,
  from the work time (`actual_rate_reports_work`).
- C138: a rate above 2 GHz has period, budget and deadline zero (`absurd_rate_has_no_period`).
- C140: a node added after the first `tick_once` is initialised but not in the stored graph; it is ticked only
  after a registry change triggers a rebuild (`late_node_ignored`).
- C141: the rebuild after the first tick requires the recorded registry version to be above zero; when no topic was
  used before the first graph was built the recorded version is zero and the graph is never rebuilt, so topics first
  used inside `tick()` never order anything (`topics_in_tick_ignored`, `consumer_before_producer_for_ever`).
- C143: `.rate(100 Hz).budget(12 ms)` is accepted and runs with a 9.5 ms deadline (`deadline_below_budget`).
- C144: a 300 kHz loop gets a 3 µs period, above 1 MHz the period is zero (`faster_than_configured`).
- C145: a name with a line break collides with a name spelling `\x0a` (`distinct_names_refused`).
- C147: on a handle that has sent and received, `send_blocking` and `try_send` write through the shared counters
  while `send` and `recv` use the handle's own: an Ok `send_blocking` overwrites unread messages
  (`blocking_on_both_loses`). `send_blocking(_, Duration::MAX)` panics (`longest_timeout_panics`). The topic's message
  counter, which the freshness watchdog and `horus topic` read, counts `send` calls: blocking sends never move it,
  dropped messages do (`total_is_not_the_traffic`).
- C148: `has_message` is false for the slower of two subscriber handles of a thread although `recv` returns messages
  (`hidden_by_faster_reader`), true for ever for an overtaken one (`announced_never_served`), too high for publishers
  (`publisher_overstates`), and frozen on the fan-out backend (`fanout_never_announces`).
- C149: `read_latest` forgets a received message on a send-and-receive handle (`latest_forgotten`), and has no ready
  check: during a send it returns the message of a whole ring earlier or an unwritten slot (`latest_during_a_send`).
- C150: requirements collected for a version that is later given up stay in force: packages nobody needs are chosen
  (`unneeded_package`) and solvable sets refused (`solvable_refused`); a dependency list that cannot be read counts as
  empty (`unreadable_deps_ignored`). Not modelled but read: `install_dependencies` takes any local directory of the
  name as satisfying any version, and goes on without resolution when resolution fails.
- C151: the hashed text does not say where the manifest ends and the imports begin
  (`hash_text_ambiguous`); no command pins anything (`nothing_ever_pinned`); an unreadable file is replaced
  (`unreadable_replaced`); a file of an older schema keeps its version (`old_schema_kept`).
- C152: every saver writes to the same temporary name, so two at once publish torn or mixed files
  (`two_savers_tear`, `two_savers_mix`); a name per process would be enough (`own_names_safe`).
- C154: a disabled plugin still runs through its link in the bin directory (`disabled_still_runs`), then without its
  checksum (`disabling_skips_checksum`); the spawn path ignores disabling (`spawn_ignores_disabled`); trust is per bytes, so untrusting
  one of two commands with the same binary may remove nothing (`untrust_misses_shared_bytes`); the bytes are hashed and
  then run by path (`checked_bytes_not_run_bytes`).
- C156: reinstalling removes the old package before the rename, so a crash leaves none (`crash_loses_package`) or part
  of it (`crash_leaves_half`). `with_extension` cuts the version at its last dot: 1.2.3 and 1.2.4 share a staging
  directory (`versions_share_staging`) and mix (`shared_staging_mixes`). A package with a link to `.` passes the
  extraction checks and is copied into itself for ever (`self_link_never_ends`, `self_link_is_unpacked`). The version
  a package claims for itself is used as a path (`version_escapes`).
- C157: leaving out the signature installs any bytes although the publisher's key is on file
  (`stripped_signature_installs`); a scoped name contains `/`, for which no key is ever looked up, so signatures of
  scoped packages are never checked (`scoped_never_verified`).
- C158: `@ab/cd` and `ab__cd` share a directory (`names_collide`); names are not checked when installing
  (`unchecked_name_escapes`).
- C159, C160: a topic handle keeps alive only the last pool-backed message it sent. Of n images sent and dropped before the
  receiver runs only the newest can be received, the others are silently skipped (`older_images_lost`); a refused
  `try_send` also replaces the kept buffer (`refused_send_loses_waiting`). Receivers look images up in the global
  pool, so an image on another pool is never received and leaks (`foreign_image_lost`, `foreign_try_send_breaks`). A received image shares its pixels with the sender (`received_image_changes`).
- C161: a dependency that is not in the file is noticed only when its turn comes, and the nodes started before stay running
  with nobody watching (`missing_dependency_orphans`); nodes of one name are dropped silently (`duplicate_name_dropped`).
- C163: StopNode on an "always" or "on-failure" node restarts it (`stopped_node_restarts`); RestartNode makes the policy
  "always" for good (`restart_changes_policy`) and the one after the tenth restart ends the node (`restart_command_gives_up`);
  session rows are filled by position (`session_wrong_process`); any message on the e-stop topic, also the release, shuts
  down (`release_shuts_down`); StopAll first waits for and restarts crashed nodes (`stopAll_restarts_first`); the e-stop topic is not
  read during back-off, up to 10 s per crashed node (`estop_waits_for_backoff`).
- C164: the rows of the edit distance are sized by bytes but filled by characters, so with a candidate that has a non-ASCII
  character the result is its byte length or 0, whatever the texts (`distance_multibyte`, `suggestion_nonsense`).
- C165: the maximum back-off does not bind the first wait (`first_wait_uncapped`).
- C166: hlog_every! loads and stores separately, so threads can print twice (`threads_print_twice`); it uses the wall clock,
  so a clock set back by d silences it for d (`set_back_silences`).
- C167: `TimeReference::source_name` is empty when byte 31 splits a character (`source_name_lost`).
- C168: the decoder of GenericMessage has no `visit_seq`, so what bincode or compact MessagePack write can never be read
  (`seq_never_decodes`); raw shared-memory bytes with a length field over 256 make `data` panic (`raw_bytes_panic`).
- C169: `clear_faults` sets the mode to normal with the emergency stop engaged, and `set_fault(0)` leaves safe stop
  (`mode_disagrees`); a heartbeat from the future is fresh (`future_stays_fresh`); offset i64::MIN overflows (`correct_overflow`).
- C170: `Rate::actual_hz` smooths the time between the start of the cycle and the call of `sleep`, so a 100 Hz loop that works
  1 ms reports 1000 Hz (`actual_is_work`).
- C171: if `try_wait` fails the driver starts another process beside the running one (`wait_error_duplicates`); the wait is
  computed in 64 bits without a limit on the shift (`wait_overflows`); a clean exit counts as a crash (`status_ignored`);
  the restarts are never given back (`gives_up_for_good`).
- C172: HORUS_SIM_TARGETS is split without trimming, so "arm, gripper" runs the real gripper (`target_space`); Python's loader does
  not look at the simulation mode at all (`python_ignores_sim`); `sim = "true"` is ignored (`sim_text_ignored`); an entry with
  a misspelt key is skipped (`misspelt_skipped`); number arguments of exec drivers are dropped (`number_arg_dropped`).
- C173: node 65 and later share the slot of node 64 (`full_registry_shares_slot`); a name cut inside a character hides the node
  (`cut_name_hidden`); nothing removes the file, and the tools merge by node name, so old files win (`stale_registry_wins`).
- C174: only the last node's metrics are exported (`only_last_node`); the final snapshot is dropped if four wait
  (`final_snapshot_dropped`).
- C175: `normalize_angle` subtracts 2pi in a loop and never ends for doubles of 2^57 and more (`normalize_angle_hangs`);
  `TransformStamped::default()` has a zero rotation, is not valid and cannot be normalised (`default_transform_invalid`).
- C176: the event executor never calls `start_tick`, so successful ticks are not counted (`event_counts_failures`), and calls
  `record_tick` before `record_tick_failure`, so it never sees two failures in a row (`event_never_unhealthy`); the main thread never
  marks a node (`main_never_unhealthy`); executors never clear the mark (`mark_stays`), nor does the probe tick (`unhealthy_absorbs`).
- C177: the compute pool goes back to sleep before looking at safing requests when no node is ready (`compute_request_lost`).
- C178: the failure rate is failures / (ticks + failures) and is not updated by good ticks (`rate_after_failure`, `rate_stale`).
- C179: system calls under their x32 numbers pass the filter (`x32_allowed`), as do io_uring, sendmmsg, unshare and setns
  (`others_allowed`).
- C180: `horus clean --shm --all-namespaces` without `--force` removes live namespaces of others if any namespace is dead, and nothing otherwise
  (`all_without_force`); the caller's own namespace can go (`own_removed_without_force`); locks of other profiles are not looked at
  (`other_profile_removed`); links out of the project are followed (`outside_removed`).
- C181: `check` hooks never fail (`check_ignored`); a failing `fmt` or `lint` hook ends the process and hides the command's error (`lint_masks`);
  `post_test` does not follow a failing test (`failed_test_no_teardown`).
- C182: arguments behind a script that ends in a comment are lost (`comment_swallows`); `~bob/app` (`other_user_differs`) and identity files with
  spaces (`identity_split`) or quotes (`identity_quote_refused`) do not work.
- C183: answering no with `--run` starts the old program and reports completion (`no_still_runs`, `fleet_no_counts`); `--port 22` is ignored
  (`port22_ignored`); unknown architectures are guessed (`unknown_arch_guessed`).
- C184: a binary for the developer's own processor is preferred to the one just built (`host_binary_sent`); see also `source_target_dropped`.
- C185: reading the list of workspaces creates `~/.horus`, which makes home a workspace (`home_is_workspace`); a workspace is not found from ten
  levels below (`deep_not_found`); registrations at the same time are lost (`lost_registration`).
- C186: any change by cargo deletes all development dependencies (`dev_lost`); path dependencies move one directory up each time (`path_moved`);
  features of git dependencies are dropped (`git_features_dropped`); see also `registry_becomes_path`, `msgs_twice`, `serde_adopted`,
  `concurrent_add_lost`.
- C187: `uvicorn[standard]>=0.20` becomes an invalid requirement (`extras_last_refused`); markers, URLs and comments end in names or versions
  (`marker_in_name`, `url_in_name`, `comment_in_version`); `--timeout 30` records a package `30` (`value_recorded`); a new version of a known package
  is not recorded (`other_version_ignored`).
- C188: a latched message sent again is always marked little endian, so one from a big-endian machine arrives unswapped (`resend_unswapped`) and an encoded one is scrambled by a big-endian receiver (`resend_scrambled`); two 32-bit fields are exchanged (`pair_exchanged`), text is reversed in groups of eight (`text_reversed`); exactly which layouts survive is
  `understood_iff`.
- C189: a core number is used as an index into the list of allowed CPUs: CPUs isolated with `isolcpus` are never used (`isolated_never_used`), a thread
  that asks for CPU 1 gets CPU 2 (`wrong_cpu`); with `.cores(&[2,3])` every thread ends on one CPU (`cores_collapse`); interrupts are moved onto CPU 0 even
  when another real-time thread runs there (`irqs_onto_zero`); `require_rt` is met on a machine without the cores asked for (`require_without_cores`).
- C191: a cancellation read before its goal is dropped (`cancel_lost`); a rejected goal is not reported (`rejected_unreported`); a poll throws away other
  goals' results (`poll_discards`); destroying the server waits for callbacks and publishes nothing for them (`shutdown_no_result`).
- C192: two clients in one process get each other's answers (`other_answer`, `answer_taken`); a failing handler answers `null` (`failure_answers`).
- C193: a rate is cut to a whole number (`rate_cut`), below one hertz the process ends (`slow_aborts`); a process can build 32 nodes with callbacks in its
  life (`only_32`).
- C194: `on=""` is accepted and makes a real-time node (`empty_topic`).
- C195: a `TypeError` in a callback's body makes it run twice (`type_error_twice`, `type_error_hidden`); an interrupt in `init` leaves the scheduler running
  without its Python nodes (`init_interrupt`).
- C196: while running, `has_node` is false and the node count 0 (`running_denies`); `is_running` is true before the run (`running_before`); a second run does
  nothing (`one_run`); `run(duration=0)` runs for ever (`zero_forever`).
- C197: a message that is `None` hides those behind it (`none_hides`).
- C198: NaN and infinities arrive as `None` (`nan_none`), tuples as lists (`tuple_list`).
- C199: a slot returned through another pool object on the same memory wakes no waiter (`other_object_sleeps`); waiting for `Duration::MAX` panics (`longest_wait_panics`).
- C200: the bounded read of an edge-triggered socket leaves a burst's tail unread (`left_behind`), and no timer or wakeup reads it before the next datagram (`stays_behind`).
- C201: dropping one of two handles makes the network forget the topic (`open_topic_forgotten`); reopening it then admits remote writes to a topic an open handle publishes (`own_commands_overwritten`); clones are not counted (`clone_forgotten`); a topic dropped during start stays registered (`ghost_topic`).
- C202: `--limit 0` reports "No differences found!" for any two sessions (`limit_zero_blind`); a node recorded in only one session is not reported (`extra_node_ignored`); nodes `left/cam` and `right/cam` share the stored name, and a session with both differs from itself (`shared_name_differs`).
- C203: milliseconds are written without leading zeros, so a later session can be deleted and an earlier one kept (`order_swapped`); a session named `recording_nan` makes every age-limited clean panic (`bad_name_panics`); a limit of 213503982334602 days wraps to 17 hours (`huge_limit_deletes`); a deleted session can still be listed (`shadow_remains`).
- C204: `0x+f` is accepted as the byte 15 (`plus_accepted`); `0x1é1` crashes the command (`letter_panics`); a semicolon in a topic name makes two different snapshots export to the same row (`semicolon_ambiguous`).
- C205: a recorder that is killed leaves a file that reads as empty (`killed_loses_all`); a failed write shifts all later entries (`torn_entry_shifts`); a changed static transform is not recorded (`static_update_lost`); a damaged count panics (`forged_count_panics`).
- C206: a frame recorded before the frame it hangs on is silently left out and recordings a thousand units apart "match" (`late_parent_unseen`); a frame that changes its parent gets a pose it never had (`reparent_mixed`).
- C207: `////` starts a doc comment; `12ab` is a number followed by a name (`slashes_and_digits`).
- C208: the report compares the intervals (about 1000 µs at 1 kHz), not their deviation, with limits of 50 and 500 µs, so every machine that keeps the rate is graded "development" (`steady_development`, `perfect_development`), a benchmark too short to measure anything is graded "production" (`unmeasured_production`), and so is a machine that stalled (`stalled_production`); isolated CPUs are not required.
- C209: the "p99" can be below half of all recorded times (`estimate_too_low`) or above all of them (`estimate_too_high`); ticks under a microsecond are reported as zero (`fast_node_zero`).
- C210: the exporter always passes `false` for "the node has a budget", so no message is ever sent as real-time (`realtime_never`).
- C211: an explicit `source = "registry"` is overridden for well-known names (`explicit_registry_overridden`); in a Python project an unknown name found on crates.io is taken from there (`network_prefers_crates`); in a mixed project a correct declaration is reported as an error (`mixed_false_error`) and plain names known on both sites are added to both parts (`dual_in_both`); `foo-sys` and `foo_sys` are resolved differently (`sys_spelling`).
- C212: `horus run` with several files succeeds although none could be started (`unstarted_succeeds`); after one line that is not UTF-8 a program's output is neither shown nor read (`bytes_cut_off`).
- C213: a star matches the shortest text only, so `*.py` misses `robot.python/main.py` (`star_missed`); everything before a last `**` is forgotten and a star after it is taken literally, so `**/*.log` matches nothing (`double_star_wrong`); directory `test` ignores `src/latest.py`, file `main.py` ignores `domain.py`, directory `/` ignores everything (`wrongly_ignored`); files found by listing are tested as `./name`, so `test_*.py` does not leave them out and such a file is run (`ignored_file_run`); an existing file with a bracket in its name cannot be run (`bracket_file_lost`).
- C214: keys of [ignore], [robot], [workspace] and [network] are not checked, so `[ignore] dirs = …` is silently without effect (`sections_unchecked`, `misspelt_ignored`); an unknown section is located at the first assignment of that name anywhere (`section_line_wrong`); a comment after a section header hides the lines of its keys (`comment_hides_line`).
- C215: a frame that gets a new parent is shown under the old one with the transform to the new (`moved_frame_misshown`); from depth three on a frame can become a root of its own, by the order of a hash map (`deep_detached`); frames in a loop are not printed (`loop_not_printed`).
- C216: discovery forgets a peer some seconds after its last announcement and takes it from the heartbeat's list, so with a slow heartbeat, e.g. 1 s and five misses, the action (`stop`) is never taken (`never_acted_on`, `slow_heartbeat_never_stops`); a misspelt action means warn (`misspelt_action`).
- C217: a `Tensor` that goes out of scope without `release()` loses its slot for good (`tensor_leaks`, `leak_exhausts`) although the class is described as owning it; `data()` of a released tensor is the next tensor's memory (`released_data_shared`); after a failed allocation the statistics count one slot too many (`failure_counted`); the size of an image is computed in 32 bits (`large_image_size`).
- C218: the contract's claim that an added field changes the struct size is false when the field fits in padding: the contract is unchanged and C++ sends whatever byte was there (`added_field_unseen`); nor is a widened field noticed (`widened_field_unseen`); `DifferentialDriveCommand` is passed without a contract entry (`uncovered`).
- C219: messages `ArmState` and `Arm_state` get the same C functions (`underscore_collides`); so do `ArmState` of package `robot` and `State` of package `robot-arm`, although the prefix exists so that projects cannot collide (`packages_collide`); `Foo` with `FooPublisher`, or `Foo` with `FOO`, define one C++ name twice (`class_name_collides`); a bool field `armed` clashes with a field `set_armed`, and `set` with `is_set` (`accessor_collides`); a field named by a Rust keyword and arrays of more than 32 elements are accepted but do not compile (`keyword_accepted`, `long_array_accepted`); the type of a nested message is written as nothing (`nested_type_missing`) and the layout hash does not see it (`nested_hash_blind`).
- C220: a node that catches panics itself escapes after its first allocation (`caught_escapes`); allocations on other threads are not seen (`remote_escapes`); on the real-time thread a turn in which the node was held back counts as its warm-up, so that its first real tick is refused (`held_turn_warms`); the panic is raised inside the global allocator, whose contract does not promise unwinding (assumption).
- C221: an index of 2^31 or more does not survive DLPack (`dlpack_large`); a device of unknown kind is CUDA as text but CPU in DLPack (`unknown_kind`); text after a second colon and a plus sign are accepted (`junk_accepted`).
- C222: after d messages by `try_send` or `send_blocking` the observer (topic echo, recorder, network exporter) is d messages behind for ever (`observed_behind`); after d dropped sends it reads d slots ahead, a message of almost a ring earlier or an unwritten slot (`observed_ahead`); uncounted messages are not noticed (`uncounted_unnoticed`), a dropped one looks like news (`drop_is_news`); the count is raised before the write although the comment in header.rs says after (`observed_mid_send`); `Topic::metrics()` counts only while content logging is on (`quiet_counts_nothing`), counts a dropped message as sent and as failed (`dropped_counts_twice`), and never counts a failed receive.
- C223: `camera = false` with `vision = true` switches camera on (`disabled_but_on`); the backend given for a group reaches no member (`group_backend_lost`); group names in `HORUS_DRIVERS` or as a table are taken literally (`group_only_in_toml`); the key `use`, which replaces the older ones, is not read (`use_ignored`); unknown drivers and an unreachable registry are passed over in silence (`unreachable_silent`).
- C224: `MockTopic::read_latest` gives nothing once the message was received, unlike `Topic::read_latest` (`latest_forgotten`); its `messages_sent` includes refused messages (`sent_counts_failures`); `PanicOnTick(n)` panics on every tick from the n-th on (`panics_from`).
- C225: a struct with a `bool` or an enum beside anything else is copied raw, so that bytes from another process may be no value of it (`flag_accepted`, `enum_accepted`; the comment names the enums but believes `bool` excluded); a `&'static` field skipped by serde is sent as an address (`address_accepted`); `u8` alone is refused (`byte_refused`).
- C226: an endpoint with `@` is the local topic of the name before it, whatever the host, yet says it is on the network and reports a name it is not connected under (`network_is_local`); names given as strings are put in lower case (`string_lowered`), so that a node with a class and one without are on different topics when the name has a capital (`capital_splits`); a string equal to a class name makes a typed topic, not connected to that class's topic (`string_typed`, `string_not_class`); a user's class is taken for a built-in one of the same name (`class_by_name`); capacities of 2^32 or more wrap (`capacity_wraps`); the detection of an existing topic's type asks for an attribute `Topic` does not have, so it never finds one (`never_detected`).
- C227: the views of images, depth images and point clouds check the number of elements but not the strides, so that a forged descriptor reads or writes at any distance before or after the pool (`forged_stride_escapes`, `forged_stride_backwards`), although the same descriptor is refused as a tensor; a descriptor outside the pool gives numpy the null address (`outside_is_null`); a one-channel image with a third dimension cannot be viewed (`third_dimension_refused`).
- C228: big-endian arrays are accepted by point clouds, images and depth images and come back byte-swapped (`cloud_swapped`, `metre_swapped`, `depth_swapped`), because the name of an element type does not tell its byte order; bfloat16 clouds (`cloud_bf16`); an image of shape (h, w, 1) comes back as (h, w) (`image_flattens`); with an encoding given, only the number of bytes is checked, so elements are reinterpreted (`image_reinterprets`).
- C229: symlinked files are sent as their targets' content (`link_sent`); ignore lines with a slash do nothing (`slash_ignored`), and neither does `*.tar.gz` (`double_ending_ignored`); a project directory named like a key file is published empty (`named_like_key`); when the secret scan refuses, the archive holding the secret stays in the temporary directory (`refused_left`); `[ patch.crates-io ]` is kept (`spaced_patch_kept`) and `[patchwork]` dropped (`patchwork_dropped`).
- C230: setting any parameter writes every variable's override into the file, where it stays in force without the variable (`override_made_permanent`), and freezes the built-in values (`defaults_frozen`); a built-in parameter cannot be deleted, though the command says so (`deleted_default_back`); a broken file can be repaired neither by `reset --force` nor by `load` (`broken_stays`); a crash while saving drops settings without a word, so that built-in limits apply (`crash_drops`); of two commands at once one is lost (`update_lost`); `nan` and `inf` become 0 on the command line and null in a variable (`nan_two_ways`); lists and quoted texts are read on the command line only (`json_two_ways`).
- C231: only 38 modules of Python's library are known, the others are installed from the network by name (`library_installed`, `future_installed`); words of comments and texts are installed (`comment_installed`, `prose_installed`); two statements on a line give nothing (`second_statement_lost`); `use x as y` asks for a package of that whole text (`rename_in_name`); operators are searched in a fixed order, so a second constraint ends up in the name (`second_constraint_in_name`); requirements differing only in the operator share one directory of the cache (`cache_shared`), so that a project asking for `numpy<2` is given what another installed for `numpy>=2` (`excluded_given`).
- C232: packages of a workspace that is not registered are removed — with no registry file, all packages of all workspaces (`unregistered_removed`); so are those of a workspace that cannot be read (`unreadable_removed`) and global installations that no workspace links (`global_removed`); every version of a used package is kept, also unused ones (`old_version_kept`); packages that could not be removed are reported as removed (`reported_removed`).
- C233: a self-closed block takes the sensors of the next one, on the wrong link (`self_closing_swallows`); sensors in comments count (`comment_counts`); an attribute such as `filename` is taken for the name (`other_attribute`); single quotes are not understood, and then no key is checked at all (`single_quotes_missed`).
- C234: entries carry only the time of day, so after midnight the newest are left out (`midnight_hides`) and entries of other days count as today's (`yesterday_shown`); local times are compared with UTC, so `--since` hides everything west of Greenwich (`west_hides_all`) and shows too much east of it (`east_shows_older`); large numbers panic or wrap (`since_panics`); an entry written during a poll of `--follow` is shown twice and another never (`raced_poll`); an unknown level shows everything (`unknown_level_shows_all`); `--clear-all` leaves the files it promises to clear (`clear_leaves_files`); trace records are never forwarded (`trace_never`) and `off` means warn (`off_is_warn`).
- C235: symbols are told apart by file name, not path, so two `mod.rs` hide each other's removals (`same_stem_hides`); methods of structs, payloads of variants, method signatures of traits, and the fields of services and actions are not compared at all (`not_looked_at`); no change of a message, alias or constant is breaking (`never_breaking`); a removed field whose name is part of another's, a changed field type and a replaced required method pass (`missed_breaking`).
- C236: interrupted after the files were moved and before `horus.toml` is written, the dependencies are lost for good: running again finds nothing to migrate (`stopped_for_good`); development dependencies and `dependencies = { … }` are dropped (`dev_dropped`, `inline_dropped`); of equal names in two files one is lost (`clash_loses`); a second migration destroys the first backup (`backup_replaced`); many spellings of `find_package` are not seen and versions there are dropped (`cmake_unseen`).
- C237: a start file that is not UTF-8 is replaced by HORUS's lines alone (`other_encoding_lost`); interrupted, the file is left empty (`interrupted_empty`); uninstalling also takes out the user's own lines that mention the file (`own_line_lost`) and leaves an empty line behind each time (`cycle_adds_blank`); without a start file nothing is installed although the command says so (`none_installed`).
- C238: next to files of other languages a single Rust file is built under another name than the one started: an old program, or none, runs (`mixed_run_stale`); `horus run PATH/Cargo.toml` builds into one directory and runs from another, so it runs what was there before (`manifest_runs_old`, `manifest_not_rebuilt`), and without a directory it always fails (`bare_manifest_fails`); with a `Cargo.toml` the named file is ignored (`file_ignored`); the program's name is read off the first `name = ` line (`wrong_name`); a Python file among several never gets the arguments (`python_args_lost`).
- C239: context makes every error permanent: transient ones are not retried, fatal ones do not stop the node (`context_permanent`, `context_not_retried`, `service_transient_lost`); the text of a converted service or action error is there twice (`said_twice`); a cause that only adds a label such as `Permission denied` is dropped (`label_lost`).
- C240: with a topic used both ways only the first peer's directions count, so the other direction may never start (`second_peer_ignored`); a reader outlives the publisher that needed it and then relays what is imported (`reader_outlives_publisher`, `stale_reader_relays`); two hosts that publish a topic and allow-list its import echo one message for ever (`echo_never_stops`); bytes are sent to subscribers of another type (`other_type_sent`); `map.scan.joint` and `lidar.right.depth.status` have one hash, so messages of one are written into the other (`colliding_names`).
- C241: `new` on an existing pool never compares its configuration with the header: with another slot count every offset resolves to other bytes and slot headers lie on tensors (`attach_disagrees`, `slots_over_data`); the free list of an opened file is not checked (`wild_free_list`); a pool made with an alignment that is not a power of two cannot be opened (`odd_alignment_unopenable`).
- C242: a node on an executor thread, which is where real-time nodes run, is shown without its priority, core, budget and deadline (`executor_settings_lost`) and stays shown after it stopped (`executor_always_reported`); every record carries the refresh time as start time and 0 errors (`start_and_errors_wrong`); an executor node whose name is over 47 bytes or is past the 64th is shown with 0 ticks and healthy for ever (`unslotted_reports_zero`); a reset shows a critical node as Error (`reset_masks_critical`); the registry file and the presence record use different health rules (`health_disagrees`).
- C243: opens that overlap can shrink the file under a mapping although the code never means to (`overlapping_open_shrinks`: the length is read before it is set); a process keeps its own capacity as modulus on the shared counter, so a reader with a larger capacity stops seeing new entries and gets old ones out of order (`larger_reader_misses`), and one with a smaller capacity never sees part of them (`smaller_reader_blind`).
- C244: a text that does not fit is indistinguishable from its own beginning (`cut_invisible`: same bytes, same return value), the needed size cannot be asked for (`no_size_query` answers 0, while the action calls answer -1), a cut can fall inside a character (`cut_inside_character`), a null buffer still reports a length (`null_reports_length`), and an inner zero byte makes the returned length wrong for the C string (`inner_zero`).
- C245: `horus_params_set_f64` accepts NaN and infinities with success and stores JSON null: has says yes, get says not found (`nan_accepted_then_missing`, `float_iff`); a float, even a whole one, is "not found" to the integer call while the reverse works (`int_float_one_way`); wrong kind, missing, null and malformed names answer alike (`not_found_ambiguous`).
- C246: lines from C++ carry an empty time (the comment says the log buffer fills it in; it does not), so they sort before every other line: `horus log` shows none of them, however new, once as many other lines match as it prints, 100 by default (`untimed_hidden`, `newest_error_hidden`), and `--since` never removes them (`untimed_survives_since`).
- C247: a node made with the macro cannot have a safe state: no section exists for it and a method of that name in `impl` is never called by the scheduler, so an emergency stop does nothing and the safety check always answers safe (`no_safe_state`, `written_safe_state_unused`); struct names with acronyms collide (`acronyms_collide`); the trait's default name of a generic node is its argument's name with a stray `>`, so different generic nodes over one type collide (`default_generic`, `generics_collide`).
- C248: a request file is created before it is filled, and a server that lists it in between reads part of it, removes it and drops it: the call times out although it was in order (`read_too_early`); the caller does the same to a response, so a call that was executed and answered is reported as timed out (`answer_thrown_away`); a payload of the wrong type gets no error, only the timeout (`bad_payload_silent`).
- C249: all senders of an action share one file name: the second of two goals sent within the server's polling interval deletes the first (`overwritten`), one sent while the server is between reading and removing is removed unread (`removed_unread`), one read too early is dropped (`read_too_early`), all after "Goal sent"; the file is not claimed, so two servers of an action both execute the goal (`executed_twice`).
- C250: the search by the last part of a name only ever finds names that are refused afterwards, and can hide a service that would have worked (`tail_search_useless`, `slash_uncallable`, `neighbour_in_the_way`); the name of an action is not checked, so `../x` or an absolute name deletes and writes `x.goal.json` outside the gateway's directory (`goal_escapes`, `goal_absolute`), which the same command for services was changed to refuse.
- C251: a name that ends in `-` is accepted and makes `apt install` remove the package before it (`dash_removes`); the end of the input counts as consent, so without a terminal `sudo` runs unasked (`closed_input_consents`); one refused name drops all the others and the installation ends well (`one_refused_all`); `apt = "-o..."` in a C++ project's horus.toml is passed to `sudo apt install` as an option (`project_option_read`); Homebrew versions and taps are refused (`real_names_refused`).
- C252: "Added features" is printed when the project requires neither crate and nothing was written (`told_but_not_added`); a mention that begins with `@` writes an entry without a name (`nameless_entry`).
- C253: a value nested deeper than the MessagePack reader allows is sent and then makes every receiver raise (`nesting_lost`); None, NaN and the infinities arrive as None, which is also the answer for no message (`none_looks_empty`); `Node.send` documents numpy arrays, which are refused, and converts only the outermost object (`node_send_inner`).
- C254: a `GoalHandle` that was moved from, or whose goal could not be sent, sends a cancel for goal 0 (`moved_goal_cancels_zero`, `failed_goal_cancels_zero`); one that outlives its client uses freed memory (`cancel_dangles`); `NodeBuilder` is copyable, and building both copies frees one builder twice (`copied_builder_twice`); a builder that is not built is leaked (`dropped_builder_leaks`), also when its scheduler was moved (`build_after_move`).
- C255: calling with another type than declared casts the publisher to the wrong class without a check (`wrong_type_confused`); a lambda node's init runs inside `add`, once per `add`, even if it is never built or run (`lambda_init_early`), and it never gets a safe state or shutdown call (`lambda_never_safe`).
- C256: the version of a dependency whose name begins with the package's name may be recorded instead (`dependency_version`: jupyter and jupyter_core); a name with a dot is added again at every install (`dotted_added_again`); a newer install leaves the old pin in place (`old_pin_stays`); `>1`, `<5` and `^1` are written after `==` (`operator_pinned`).
- C257: a package that is only in the workspace is replaced in place and then removed as the old copy (`workspace_package_lost`); packages from PyPI or crates.io are looked up in the HORUS registry by name (`source_ignored`).
- C258: a nested resolution ignores the outer one, and a package that is there counts as installed at any version, so a package can end up with a dependency it excludes (`bound_broken`, `present_counts`); a failed dependency leaves its package in place, and later installations take it as complete (`half_installed_stays`); when the registry cannot be reached a version bound is dropped (`unreachable_unbounded`).
- C259: a node name with quotes in it from a peer is listed as several nodes (`forged_node`); the age is measured against the sender's clock, so a host 31 s behind is never listed and one ahead is shown running after it died (`slow_clock_hidden`, `fast_clock_running`); registry data is matched by name only, so of two processes with a node of the same name one shows the other's numbers (`same_name_mixed`); a remote node with the name of a launched local one gets its session (`remote_labelled`).
- C260: a directory counts as executable, so one with the binary's name in an earlier place makes registration fail (`directory_hides`).
- C261: the command is unregistered before the question is asked, so answering no keeps the package without its command (`refusal_unregisters`), as does a name not in the cache (`missing_unregisters`); the command is guessed from the package name, so others stay registered to a missing binary (`other_name_stays`) or belong to another package (`wrong_package_hit`); a disabled entry and further versions stay (`disabled_stays`, `second_version_stays`); a user-wide uninstall edits the horus.toml and horus.lock of the current directory (`project_edited`); a command passes silently to the package installed last, and is lost when linking fails (`takeover`, `failed_link_drops`).
- C262: a dependency in an inline section is reported as removed and stays (`inline_remove_nothing`), and an entry of [hardware] cannot be removed (`hardware_stays`); every URL contains a slash and is taken as a path, so the git detection never applies (`url_is_path`, `git_needs_flag`); `@org/package` is read as the empty name with version `org/package`, and written so (`scoped_is_empty`, `scoped_written`); a package that could not be installed stays in the manifest (`failed_install_written`); a new version drops the entry's features (`update_drops`).
- C263: once the keep-alives of the publishers fill the pool while each is below its window, every later message larger than a slot is refused for good, however much subscribers read, until a topic is dropped (`full_pool_stuck`, `full_pool_refuses`, `full_pool_reached`; with windows of 256 and 1024 slots, five publishers suffice, or one with messages of 4 MB); the oldest message of a full ring is given up before the new one is known to go out and is lost if it does not (`oldest_lost`); dropping a publisher takes its unread large messages with it while small ones stay (`drop_loses_large`); a 40-byte message that begins with the marker's eight bytes is read as a descriptor (`lookalike`).
- C264: `[network]` takes effect only when `horus run` is given several files: a program run as one file, directory, manifest or workspace member gets none of it, so `enabled = false`, `import = "deny"` and `on_link_lost = "safe_state"` are silently inert there (`one_target_ignores`, `one_target_witness`); an empty allow-list and `import = false` mean automatic import, and `["auto"]` and `["off"]` are read as modes (`import_surprises`); a pattern containing a comma becomes two (`comma_splits`); a misspelt link-loss action is accepted and only warns (`misspelt_warns`).
- C265: `horus topic list` deletes the region file of a topic whose creator has ended although other processes have it open, if the directory gives the description before the file: the next process to open the topic gets a new region and the two halves no longer hear each other (`list_splits`), and when the old half closes it deletes the name of the new region (`orphan_close_removes`); whether the topic is deleted or shown depends on directory order (`order_decides`, `used_shown_stale`); topic names from node files are not validated (`node_names_unchecked`); the sweep of `horus run` deletes all descriptions, hiding nested topics in use (`sweep_hides`); `a.b`, `a_b` and `a/b` share one description (`shared_description`); a description of a nested topic survives its deletion (`description_left`).
- C266: in a workspace member a HORUS registry dependency is written as a crates.io requirement of the same name (`registry_from_crates_io`); declaring `serde`, or anything optional, in `[workspace.dependencies]`, declaring `horus` in a member, or a scoped name makes the generated file invalid (`shared_serde_refused`, `shared_optional_refused`, `member_horus_refused`, `scoped_refused`); inheriting a shared Python dependency breaks the Rust build (`inherited_missing`); `optional` of inherited and path dependencies is dropped (`marks_dropped`); `--net` and `enable` have no effect (`net_ignored`); a root package is silently not built (`root_package_left_out`); `a/b` and `a_b` overwrite each other (`member_replaced`); `horus run` in a workspace runs nothing and succeeds, and a member turned into a library runs its old program (`plain_run_runs_nothing`, `library_run`).
- C267: `horus record inject --loop` cannot be stopped: SIGTERM and a shutdown command end the run and the next one starts (`loop_not_stopped`, `sigterm_restarts`); Ctrl+C ends the first run only, later ones go on until the forced exit two seconds later, which neither shuts the nodes down nor stops the script (`first_ctrlC`, `later_ctrlC`). Without a stop tick playback never ends and a loop never restarts (`never_finishes`). A loop whose first run fails ends with success (`loop_hides_error`); when recordings disappear the stop tick is dropped and an empty scheduler runs for ever (`empty_round_stays`). A node called `scheduler` is never injected (`scheduler_node_never`). HORUS_INJECT_SESSION and HORUS_INJECT_NODES, set for the script, are read nowhere, so the script's own copies of the injected nodes run too.
- C268: `horus cargo +nightly build` and `horus cargo -v build` are not given the project's manifest (`leading_word_loses`); `horus cargo run -- --manifest-path x` neither (`program_argument_loses`); `horus cmake -Bout` builds in `.horus/cpp-build` instead (`joined_build_overridden`); `horus cmake -DX=1 .` configures the user's directory (`dot_after_option`); `cmake -DX=1 -P s.cmake` gets a build directory (`script_after_definition`); ten directories below the root a project is not seen (`deep_unseen`); HORUS_REAL_* is said to be set by env.sh and is set nowhere.
- C269: `horus lock --check` succeeds with libraries missing and tools mismatched (`check_ok_iff`, `errors_never_set`); a pinned tool that is not installed draws no warning (`absent_tool_silent`); the CMake pin and the locked library versions are compared with nothing (`cmake_unchecked`, `library_version_unchecked`); a library without a pkg-config name is missing on every machine (`nameless_always_missing`); a pin of `3` rejects every Python 3 (`major_pin_rejects`); `horus lock` over an unreadable file replaces it by one without packages (`broken_lock_replaced`) and never records a system library (`lock_adds_no_system`).
- C270: `opencv4` and `opencv` are alternatives and both are demanded, so a machine with OpenCV 4 is told a library is missing at every build (`opencv_never_clean`), with an empty command as quick fix (`quick_empty`); without dpkg every package is missing (`no_dpkg_all_missing`); the brew, pacman, choco and nix names of the table are read by nothing.
- C271: The update of horus runs `cargo install --path .`: whatever package the working directory holds is installed and reported as the registry's version (`wrong_package_claimed`), and elsewhere it fails (`nowhere_fails`); any different version counts as new, also an older one (`older_offered`); plugins are updated only if `.horus/plugins` has entries, a directory no command makes (`no_directory_no_update`); a project plugin with the command of a global one is not updated although it is the one that runs (`shadowed_not_updated`).
- C272: Outside every call a line carries the tick number of the last call on its thread (`tick_left_behind`); `trace` forwards what `debug` does (`trace_is_debug`); `off` is the default, warnings and errors (`off_is_warn`).
- C273: Users of `try_send`, `send_blocking`, `read_latest` and `try_recv` are not listed (`other_methods_unseen`); image, point cloud, depth and tensor topics made in a constructor are never listed (`pool_constructor_unseen`); 256 uses outside calls hide a handle for good (`outside_uses_exhaust`, `exhausted_unseen`); the user of a clone of a listed handle is not listed (`clone_unseen`); a handle made in one node's `init` and used by another is put down to the first (`given_away_misnamed`); dropping a handle takes nobody off, though the comment says so (`dropped_stays`).
- C274: The wanted backend is computed before the lock is taken and not looked at again: a thread overtaken by a joining participant puts the topic back on the ring for the old participants, with success reported all round (`stale_target_wins`); a death between the two writes changes the backend without a new epoch, and nobody ever bumps it (`death_between`); waiters break the lock after 5 ms although its holder may spin for 25 ms, and then two threads write at once (`broken_lock_overlaps`).
- C275: Handles of other processes send up to three messages with the backend that was given up (`three_behind`); after a death between the two writes, up-to-date handles keep the old backend for good (`stranded`).
- C276: A process that dies while its slot is marked as being filled in loses the slot for good: nobody is ever given it, however long one waits (`orphan_forever`). A topic has 16. An owner that refreshes its lease between a newcomer's look at the lease and its claim loses the slot although it is alive (`refreshed_yet_taken`). An owner that comes back for its other role while its slot is being taken over is told it has the slot and leaves the counter one too high for good (`counter_stays_high`).
- C277: With one subscriber, a message that cannot be decoded (for example one holding a `serde_json::Value`, which bincode writes but cannot read) stops the stream for good: nothing is received any more (`one_stuck`) and, once the ring is full, every send fails (`one_wedged`). With several subscribers it is skipped (`many_goes_on`), but a slow claimant gets a later message, which is delivered twice (`slow_claimant_gets_later`).
- C278: `horus new` in a directory that already holds a project succeeds and replaces the user's manifest and entry point (`overwrites`). Names with capital letters, of one letter, or such as `test` are taken and then refused by `horus check` (`taken_but_refused`). A name above 64 bytes with other than ASCII letters panics (`long_name_panics`). `--lib` is ignored in a workspace and, with Python or C++, gives a library manifest beside a program (`lib_flag`). A failure half way leaves the manifest behind (`half_made`).
- C279: A feedback callback that sends a goal hangs its own thread, because the map of goals stays locked while it runs (`feedback_callback_sends_hangs`); status and result callbacks may. A callback that waits for a result hangs on the pump lock (`callback_waits_hangs`). A feedback callback that lists the active goals, and the callback of a waiting call that sends a goal or looks at its own handle, hang when another thread is at the wrong place (`feedback_callback_lists_hangs`, `waiting_callback_sends_hangs`, `waiting_callback_looks_hangs`).
- C280: A change callback that registers another callback hangs its thread (`callback_registers_hangs`); one that sets a parameter hangs when another thread is registering a callback (`callback_sets_hangs`).
- C281: A user-installed stop hook that replaces itself hangs (`hook_replaces_itself_hangs`); a stop hook asking for the safe state together with a safe-state hook asking for a stop can hang while hooks are being installed (`hooks_in_circle_hang`).
- C282: `get_node_stats` and `get_all_nodes` make dictionaries with the scheduler locked: a garbage collection that runs a finalizer there can hang two threads (`finalizer_in_listing_hangs`). `hardware.register` drops what it replaces with its lock held: a finalizer that registers hangs its thread (`finalizer_in_register_hangs`).
- C283: `listed_not_found`: in a project with `inherit_global: false` the global plugins are still listed, unmarked, although running them finds nothing. `unknown_verified`: `horus verify` of a plugin that is not installed (or is disabled) reports that all plugins are verified. `search_unknown`: `horus search --category` with an unknown category returns plugins of every category.
- C284: `json_alone_iff`: `horus clean --json --all`, and `--json --shm` when there is a namespace, print text after the JSON document, because two parts print although the run is quiet. `locked_listed`, `live_listed`: the document lists directories that are left (a build in progress, live namespaces); `bytecode_unlisted`: it does not list the bytecode directories that are removed. `stuck_stops`: if `target/` cannot be removed, `--all` leaves the memory and the cache too.
- C285: `horus tf calibrate` finds the rotation by a hundred rounds of power iteration from the quaternion 1. For points in one plane the matrix has two eigenvalues of the same size and opposite sign, and the iteration does not settle: for points at one height (a calibration sheet on the floor) turned about the vertical by any angle the answer is no rotation at all, from exact measurements (flat_turn_lost, floor_turn_lost). For a true rotation by a half turn, such as a sensor mounted upside down, the first guess has no part along the answer and the result is always wrong (half_turn_lost). The command then blames the accuracy of the points.
- C286: Hand-eye calibration answers poses that do not determine the mount with the identity and a zero translation, as a result and without a warning: a robot that turns about one axis only, such as a mobile base or a turntable, always gets this (one_axis_silent, solve_singular). A sensor mounted by a half turn, such as a camera upside down, is never found (half_turn_never). For a motion by a half turn about an axis in the y-z plane with parts of opposite sign the axis is mirrored (half_axis_mirrored): the signs of y and z are read against x only.
- C287: A declared dependency on a scoped package (`@org/name`) is forgotten: the text is split at its first '@', the parse error is discarded and the package is installed without it (scoped_forgotten, forgotten_silent). So is one whose requirement is not semver (unread_forgotten), while for horus_py such a requirement becomes any version (py_any). Features asked of a crate are dropped (features_dropped), and an older registry's answer brings in development dependencies (old_brings_all).
- C288: A Python dependency with the usual requirement, `1.26` or `^1.26`, cannot be installed: pip is given `==^1.26` and refuses it (usual_refused); so is every requirement with a caret or a tilde, and every list with an exact version or wildcard in it (refused_iff). The comment in the code says the semver crate writes `^1.2` as a range; its own test says otherwise. `=1.2` becomes `===1.2`, which takes no three-number version (short_exact_none); `>1.2` lets in 1.2.1 and `<=1.2` keeps it out (short_bounds).
- C289: `horus msg` leaves out every public field whose name begins with `fn`, so the hash shown for such a message is not the one compared (fn_field_lost, fn_changes_hash). A struct written on one line takes over the fields of the next struct, which is then not found (one_line_swallows). A closing brace in a comment ends the fields (brace_in_comment). A struct without fields is listed as `Stop;` (unit_misnamed). A message declared with the `message!` macro, the only place a layout hash comes from, is not found at all (macro_unseen).
- C290: The column reported counts bytes: behind an umlaut in a string or comment it points too far right (column_iff). A quoted table name with a closing bracket in it is cut off (header_quoted). From ten or more directories below horus.toml the project is not found (deep_lost).
- C291: `horus deploy` takes the first language it sees in the order Rust, Python, C++: a C++ project with any Python script beside its sources is deployed as Python, that is without being built, although `horus run` builds it as C++ (script_wins); a Python project with a Rust file beside it is deployed as Rust (python_as_rust). Sources deeper than src/ are not seen, and such a project is deployed as Rust (nested_unseen). A directory named like a source file counts as one (directory_counts). The generated .horus/pyproject.toml counts for deploy and check but not for fmt, lint and the other tools (tools_agree_iff).
- C292: Where the tool for a language is not installed, `horus fmt --check` and `horus lint` pass over that language without a word and end with success, so a check in CI is green over code nobody looked at (missing_green); with no tool at all there is a warning and success. A ROS 2 package is always in order (ros_green). C++ files more than eight directories down are not given to the tools (deep_file). What a user adds to `horus lint` goes behind the dashes to the lints and never reaches cargo (clippy_extra).
- C293: `horus blackbox --follow` throws away what is left of a read after its last line feed: a read that falls into a write loses that record for good (torn_read), and one that ends inside a character ends the follower with an error. `--follow` ignores `--tick` and `--last` without a word (tick_ignored). With `--node` no emergency stop is ever shown (stop_hidden). A failed tick is no anomaly (failed_tick_quiet). `--tick 9-3` is accepted and shows nothing (backwards_range). `--clear` unlinks the log a running recorder has open, so nothing recorded afterwards can be read until the recorder is restarted (clear_blinds).
- C294: `horus launch --stop` reports that the stop command was sent although the launcher is dead: it opens the control topic, which always works, so the fallback to a signal is never reached (stop_dead). Once `--status` has been called, the session of a killed launcher is unknown to `--stop` while its processes may run on (killed_unknown). Two launches of files with the same stem share one session file: only one is listed, and when it ends the other is neither listed nor stoppable until it writes again (same_name). A launched process that has no node yet is given any scheduler that has its name, also another process's, and a stop shuts that one down (foreign_scheduler). Once found, a process's scheduler and nodes are never looked up again, also after a restart (restart_stale).
- C295: `horus check` looks only at the first module of `import a, b`, while `horus run` installs both (rest_unseen). It knows 41 standard modules: a program that imports struct, signal, shutil, glob and many others is reported to lack a package and the check fails (library_missing). A program in ~/.cargo/bin of the package's name counts as the package (program_counts). Text in a docstring that begins with `import` is taken for a statement (prose_missing). Since only pip is asked for the module's name, a project's own modules and packages whose distribution has another name (cv2, yaml) are reported as well.
- C296: A run of `horus install` killed while cargo builds leaves the overrides it wrote; every later run takes them for the package's own file, so they are used and kept for good, also when the horus source has moved (killed_stays). A file that could not be filled stays empty for good and later builds go without overrides (half_written). In a cache of horus the crates are looked for under version 0.1.0 only (cache_version). A package that depends on `horus` alone gets no overrides (horus_alone).
- C297: While the registry does not answer, a package it has is taken without a question from a public index that has one of the same name (outage_shadow); while one index does not answer, the other is used without a question (unasked). Any answer to the question but 1, 2 and 3, also an empty one at the end of the input, installs from PyPI (any_key). Names that begin with `horus` are never looked for in an index (prefix_taken). The indexes are asked with the name as typed: `tokio#x` is found on crates.io because `tokio` is (fragment_found).
- C298: With a generator of several configurations, a release build after a debugging build starts the old debugging program (stale_debug). A directory of the target's name in the build directory is taken for the program (directory_run). If the target is not found, any other executable file there is started, such as the program of the project's former name or a shared library (other_started).
- C299: A known library given as a table without lang, source or cmake_package is not looked at, though the generated CMakeLists.txt needs it, while the same library given by a version alone is (table_skipped). A package removed but not purged counts as installed (removed_counts).
- C300: A compile_commands.json of the project's own is deleted without a question by the first build (own_lost). If the link cannot be made, or the run is killed between the two steps, nothing is left (link_lost).
- C301: `horus test --sim` runs C++ tests with the real drivers: HORUS_SIM_MODE is set for cargo and pytest only (cpp_real). A number of threads is ignored for C++ tests, and for Python tests without --parallel (threads_ignored). With --no-build a Rust project that was never built passes although nothing was run (nothing_green).
