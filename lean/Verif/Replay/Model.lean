import Verif.Replay.Codec
import Mathlib.Data.List.Dedup
/-
Recording a node, saving the recording, replaying it in a scheduler and walking through it in the
debugger.
Sources: /repo/horus_core/src/scheduling/record_replay.rs, scheduler/recording.rs, scheduler/mod.rs,
{rt,compute,async,event}_executor.rs, core/clock.rs.
Simplifications: log lines and watch events are left out; a topic file holds just its newest message;
a scheduler tick may run its nodes in any order.
-/
namespace Horus.Replay

/- Recording. -/

/-- record_replay.rs:55-77 `RecordingConfig`, the fields that decide what is kept. -/
structure Cfg where
  interval : Nat
  maxSize : Nat
  maxSnaps : Nat
  recIn : Bool
  recOut : Bool
  recTime : Bool
deriving DecidableEq, Repr

/-- record_replay.rs:81-108: the defaults. -/
def Cfg.std : Cfg := ⟨1, 0, 0, true, true, true⟩

/-- record_replay.rs:638-653 `NodeRecorder`. `io_capacity` only sizes allocations and is left out. -/
structure Recorder where
  r : Rec
  cur : Option Snap
  enabled : Bool
  est : Nat
deriving DecidableEq, Repr

/-- record_replay.rs:506-524, 655-671 `NodeRecording::new`, `NodeRecorder::new`. -/
def Recorder.new (id name session : Bytes) (now : Nat) : Recorder :=
  ⟨⟨2, id, name, session, now, none, 0, 0, [], none, []⟩, none, true, 0⟩

/-- record_replay.rs:452-464: an empty snapshot. -/
def Snap.fresh (tick ts : Nat) : Snap := ⟨tick, ts, [], [], none, 0, none, false⟩

/-- record_replay.rs:677-696 `begin_tick`. -/
def Recorder.beginTick (c : Cfg) (x : Recorder) (tick ts : Nat) : Recorder :=
  if x.enabled = false then x
  else if tick % (max c.interval 1) ≠ 0 then { x with cur := none }
  else { x with cur := some (Snap.fresh tick ts) }

/-- record_replay.rs:784-790 `record_input`. -/
def Recorder.input (c : Cfg) (x : Recorder) (kv : Bytes × Bytes) : Recorder :=
  if c.recIn then { x with cur := x.cur.map fun s => { s with ins := Map.set s.ins kv.1 kv.2 } } else x

/-- record_replay.rs:797-803 `record_output`. -/
def Recorder.output (c : Cfg) (x : Recorder) (kv : Bytes × Bytes) : Recorder :=
  if c.recOut then { x with cur := x.cur.map fun s => { s with outs := Map.set s.outs kv.1 kv.2 } } else x

/-- record_replay.rs:714-716: the size estimate of a snapshot. -/
def Snap.cost (s : Snap) : Nat :=
  64 + (s.ins.map fun kv => kv.2.length).sum + (s.outs.map fun kv => kv.2.length).sum

/-- record_replay.rs:534-540 `add_snapshot`. -/
def Rec.addSnap (r : Rec) (s : Snap) : Rec :=
  { r with first := if r.snaps = [] then s.tick else r.first, last := s.tick, snaps := r.snaps ++ [s] }

/-- record_replay.rs:727-736: the ring-buffer mode: keep at most `n` snapshots, drop the oldest. -/
def Rec.trim (r : Rec) (n : Nat) : Rec :=
  if 0 < n ∧ n < r.snaps.length then
    { r with
        snaps := r.snaps.drop (r.snaps.length - n)
        first := ((r.snaps.drop (r.snaps.length - n)).head?.map Snap.tick).getD r.first }
  else r

/-- record_replay.rs:699-738 `end_tick`. -/
def Recorder.endTick (c : Cfg) (x : Recorder) (dur : Nat) : Recorder :=
  match x.cur with
  | none => x
  | some s0 =>
    let s := if c.recTime then { s0 with dur := dur } else s0
    if 0 < c.maxSize ∧ c.maxSize < x.est + s.cost then
      { x with cur := none, est := x.est + s.cost, enabled := false }
    else { x with cur := none, est := x.est + s.cost, r := (x.r.addSnap s).trim c.maxSnaps }

/-- Which executor ticks the node. -/
inductive Cls | main | rt | event | pool
deriving DecidableEq, Repr

/-- One tick of a node as the recorder meets it: the executor's own tick number, the clock, what each
subscribed topic's newest slot held before the tick, what each published topic's newest slot held after
it, and how long it took. -/
structure Tick where
  tick : Nat
  ts : Nat
  ins : List (Bytes × Bytes)
  outs : List (Bytes × Bytes)
  dur : Nat
deriving DecidableEq, Repr

/-- The tick number handed to `begin_tick`: scheduler/mod.rs:4277-4279 and event_executor.rs:187-190
pass a counter, rt_executor.rs:214-215, compute_executor.rs:183-187 and async_executor.rs:173-177 pass
the constant 0. -/
def Cls.tick (k : Cls) (d : Tick) : Nat :=
  match k with
  | .main | .event => d.tick
  | .rt | .pool => 0

/-- Inputs are captured on the main thread (scheduler/mod.rs:4281-4304) and by the RT executor
(rt_executor.rs:217-236). -/
def Cls.ins (k : Cls) (d : Tick) : List (Bytes × Bytes) :=
  match k with
  | .main | .rt => d.ins
  | .event | .pool => []

/-- Outputs are captured on the main thread only (scheduler/mod.rs:4507-4530). -/
def Cls.outs (k : Cls) (d : Tick) : List (Bytes × Bytes) :=
  match k with
  | .main => d.outs
  | _ => []

/-- One recorded tick: begin, inputs, the tick itself, outputs, end (scheduler/mod.rs:4277-4304,
4507-4535; rt_executor.rs:213-287; event_executor.rs:187-213; compute_executor.rs:183-187, 322-324). -/
def recTick (c : Cfg) (k : Cls) (x : Recorder) (d : Tick) : Recorder :=
  let x1 := x.beginTick c (k.tick d) d.ts
  let x2 := (k.ins d).foldl (Recorder.input c) x1
  let x3 := (k.outs d).foldl (Recorder.output c) x2
  x3.endTick c d.dur

/-- A run of recorded ticks. Source: scheduler/mod.rs:4260-4535. -/
def record (c : Cfg) (k : Cls) (x : Recorder) (ds : List Tick) : Recorder := ds.foldl (recTick c k) x

/- Saving. -/

/-- Files by path. -/
abbrev FS := Map Bytes Bytes

/-- `Path::with_extension("horus.tmp")` of a path ending in `.horus` (record_replay.rs:234). -/
def tmpOf (p : Bytes) : Bytes := p ++ [46, 116, 109, 112]

/-- The system calls of a save (record_replay.rs:226-268). -/
inductive Sys | create | write (b : Bytes) | rename
deriving DecidableEq, Repr

/-- One system call (record_replay.rs:226-268). `rename` replaces its target in one step. -/
def sys (p : Bytes) (fs : FS) : Sys → FS
  | .create => Map.set fs (tmpOf p) []
  | .write b => Map.set fs (tmpOf p) ((Map.get fs (tmpOf p)).getD [] ++ b)
  | .rename => Map.del (Map.set fs p ((Map.get fs (tmpOf p)).getD [])) (tmpOf p)

/-- A save: create the temporary file, write the buffer in any number of pieces, rename
(record_replay.rs:226-268). -/
def saveCalls (pieces : List Bytes) : List Sys := .create :: pieces.map .write ++ [.rename]

/-- The files after the first `k` system calls of a save: the process may die there. -/
def saveUpTo (p : Bytes) (pieces : List Bytes) (k : Nat) (fs : FS) : FS :=
  ((saveCalls pieces).take k).foldl (sys p) fs

/-- record_replay.rs:274-382 `load` of a path. -/
def load (fs : FS) (p : Bytes) : Option Rec := (Map.get fs p).bind loadBytes

/-- record_replay.rs:1014-1032 `session_recordings` lists the paths with extension `horus`. -/
def listed (p : Bytes) : Bool := decide ([46, 104, 111, 114, 117, 115] <:+ p)

/- Names. -/

/-- Split at `/`, as `Path::components` does. -/
def splitSlash : List Char → List (List Char)
  | [] => [[]]
  | c :: cs =>
    if c = '/' then [] :: splitSlash cs
    else match splitSlash cs with
      | [] => [[c]]
      | w :: ws => (c :: w) :: ws

/-- `Component::Normal`: not the root, `.` or `..`. -/
def normal (w : List Char) : Bool := w ≠ [] && w ≠ ['.'] && w ≠ ['.', '.']

/-- record_replay.rs:21-37 `sanitize_path_component`. -/
def sanitize (s : List Char) : List Char :=
  (((splitSlash s).filter normal).getLast?).getD "unnamed".toList

/-- `str::replace('@', "_")`. -/
def noAt (s : List Char) : List Char := s.map fun c => if c = '@' then '_' else c

/-- record_replay.rs:126-131 `node_path`, the file name. -/
def savedName (name id : List Char) : List Char :=
  noAt (sanitize name) ++ ['@'] ++ noAt (sanitize id) ++ ".horus".toList

/-- scheduler/mod.rs:1800-1803: the file name the scheduler recording remembers. -/
def registeredName (name id : List Char) : List Char := name ++ ['@'] ++ id ++ ".horus".toList

/-- scheduler/recording.rs:197-206: the file name `replay_from` looks for. -/
def lookedUpName (name id : List Char) : List Char := sanitize (registeredName name id)

/- Replaying one node. -/

/-- record_replay.rs:807-811 `NodeReplayer`. -/
structure Replayer where
  r : Rec
  idx : Nat
  tick : Nat
deriving DecidableEq, Repr

/-- record_replay.rs:839-845 `from_recording`. -/
def Replayer.new (r : Rec) : Replayer := ⟨r, 0, 0⟩

/-- record_replay.rs:817-836 `load`: a recording without snapshots is refused. -/
def Replayer.load (fs : FS) (p : Bytes) : Option Replayer :=
  match Replay.load fs p with
  | none => none
  | some r => if r.snaps = [] then none else some (Replayer.new r)

/-- record_replay.rs:848-850 `current_snapshot`. -/
def Replayer.cur (x : Replayer) : Option Snap := x.r.snaps[x.idx]?

/-- record_replay.rs:863-873 `advance`. -/
def Replayer.advance (x : Replayer) : Bool × Replayer :=
  if x.idx + 1 < x.r.snaps.length then
    (true, { x with idx := x.idx + 1, tick := ((x.r.snaps[x.idx + 1]?).map Snap.tick).getD x.tick })
  else (false, x)

/-- record_replay.rs:874-883 `seek`: the loop, from index `i`. -/
def seekFrom (t : Nat) : List Snap → Nat → Option (Nat × Nat)
  | [], _ => none
  | s :: l, i => if t ≤ s.tick then some (i, s.tick) else seekFrom t l (i + 1)

/-- record_replay.rs:874-883 `seek`. -/
def Replayer.seek (x : Replayer) (t : Nat) : Bool × Replayer :=
  match seekFrom t x.r.snaps 0 with
  | some (i, k) => (true, { x with idx := i, tick := k })
  | none => (false, x)

/-- record_replay.rs:886-889 `reset`. -/
def Replayer.reset (x : Replayer) : Replayer := { x with idx := 0, tick := x.r.first }

/-- record_replay.rs:892-894 `is_finished`. -/
def Replayer.finished (x : Replayer) : Bool := decide (x.r.snaps.length ≤ x.idx)

/- Replaying in a scheduler. -/

/-- types.rs `RegisteredNode`: name, whether it has a `NodeInfo` context (a node added with `add` does,
scheduler/mod.rs:1786, one added by `add_replay` does not, recording.rs:73), initialized, stopped. -/
structure Node where
  name : Bytes
  ctx : Bool
  init : Bool
  stopped : Bool
deriving DecidableEq, Repr

/-- The part of `Scheduler` that replay touches. `pub` records, per tick of a node, what replay wrote
to the topics. -/
structure Sch where
  nodes : List Node
  reps : Map Bytes Replayer
  ovr : Map Bytes (Map Bytes Bytes)
  topics : Map Bytes Bytes
  tick : Nat
  pub : List (Bytes × List (Bytes × Bytes))
deriving DecidableEq, Repr

/-- A scheduler with no nodes over the topics that exist. -/
def Sch.empty (topics : Map Bytes Bytes) : Sch := ⟨[], [], [], topics, 0, []⟩

/-- What a tick brings for one node: whether `init` succeeds, whether the other gates of
`should_tick_node` (scheduler/mod.rs:4166-4250) admit it, and what the node itself publishes. -/
structure NodeEnv where
  initOk : Bool
  admit : Bool
  pubs : List (Bytes × Bytes)
deriving DecidableEq, Repr

/-- What a program can do with a scheduler. `order` is the order in which a tick runs its nodes. -/
inductive Op
  | add (name : Bytes)
  | addReplay (r : Rec)
  | startAt (t : Nat)
  | override (node topic value : Bytes)
  | stopNode (i : Nat)
  | tick (env : Nat → NodeEnv) (order : List Nat)

/-- scheduler/mod.rs:2994-3060 `initialize_filtered_nodes` (and 3142-3180 `reinit_pending_nodes`): only
a node with a context is initialized. -/
def Node.initStep (n : Node) (e : NodeEnv) : Node :=
  if n.init = false ∧ n.ctx = true ∧ e.initOk = true then { n with init := true } else n

/-- scheduler/mod.rs:4306-4335: the outputs of the current snapshot, a topic's override in place of its
recorded data. -/
def replayOuts (s : Snap) (ovr : Option (Map Bytes Bytes)) : List (Bytes × Bytes) :=
  s.outs.map fun kv => (kv.1, ((ovr.bind fun o => Map.get o kv.1)).getD kv.2)

/-- header.rs `write_topic_slot_bytes` on a topic file that exists (scheduler/mod.rs:4336-4349). -/
def writeTopic (t : Map Bytes Bytes) (kv : Bytes × Bytes) : Map Bytes Bytes :=
  if Map.has t kv.1 then Map.set t kv.1 kv.2 else t

/-- scheduler/mod.rs:4306-4357: the replay part of `prepare_node_tick`. -/
def Sch.prepare (s : Sch) (name : Bytes) : Sch :=
  match Map.get s.reps name with
  | none => s
  | some x =>
    match x.cur with
    | none => s
    | some snap =>
      let outs := replayOuts snap (Map.get s.ovr name)
      { s with
          reps := Map.set s.reps name x.advance.2
          topics := outs.foldl writeTopic s.topics
          pub := s.pub ++ [(name, outs)] }

/-- scheduler/mod.rs:4418-4429 `execute_single_node`: gate, prepare, and the node's own tick, which
needs a context (4365-4368). -/
def Sch.exec (s : Sch) (env : Nat → NodeEnv) (i : Nat) : Sch :=
  match s.nodes[i]? with
  | none => s
  | some n =>
    if n.stopped = false ∧ n.init = true ∧ (env i).admit = true then
      let s1 := s.prepare n.name
      if n.ctx then { s1 with topics := (env i).pubs.foldl (fun t kv => Map.set t kv.1 kv.2) s1.topics } else s1
    else s

/-- Initialize every node that can be. Source: scheduler/mod.rs:2994-3060. -/
def Sch.initAll (s : Sch) (env : Nat → NodeEnv) : Sch :=
  { s with nodes := s.nodes.mapIdx fun i n => n.initStep (env i) }

/-- scheduler/recording.rs:220-229 `start_at_tick`, for the replayers. -/
def seekAll (reps : Map Bytes Replayer) (t : Nat) : Map Bytes Replayer :=
  reps.map fun kv => (kv.1, (kv.2.seek t).2)

/-- One call. `add`: scheduler/mod.rs:1786-1840; `addReplay`: recording.rs:37-101 (an empty recording is
refused); `override`: recording.rs:232-245; `tick`: scheduler/mod.rs:2131-2248. -/
def Sch.step (s : Sch) : Op → Sch
  | .add name => { s with nodes := s.nodes ++ [⟨name, true, false, false⟩] }
  | .addReplay r =>
    if r.snaps = [] then s
    else { s with nodes := s.nodes ++ [⟨r.name, false, false, false⟩], reps := Map.set s.reps r.name (Replayer.new r) }
  | .startAt t => { s with tick := t, reps := seekAll s.reps t }
  | .override node topic value =>
    { s with ovr := Map.set s.ovr node (Map.set ((Map.get s.ovr node).getD []) topic value) }
  | .stopNode i => { s with nodes := s.nodes.modify i fun n => { n with stopped := true } }
  | .tick env order =>
    let s1 := order.foldl (fun s i => s.exec env i) (s.initAll env)
    { s1 with tick := s1.tick + 1 }

/-- A program's calls. -/
def Sch.run (s : Sch) (ops : List Op) : Sch := ops.foldl Sch.step s

/- The scheduler recording and the replay clock. -/

/-- record_replay.rs:582-600 `SchedulerRecording`. -/
structure SRec where
  total : Nat
  order : List (List Bytes)
  nodes : Map Bytes Bytes
  started : Nat
  ended : Option Nat
deriving DecidableEq, Repr

/-- scheduler/mod.rs:2214-2241: at the end of `tick_once` the order of the nodes is pushed; nothing
counts `total_ticks` (`record_execution_order`, record_replay.rs:628-631, which would, has no caller). -/
def SRec.afterTick (r : SRec) (order : List Bytes) : SRec := { r with order := r.order ++ [order] }

/-- scheduler/recording.rs:348-358 `replay_tick_period_ns`. -/
def periodNs (started : Nat) (ended : Option Nat) (total : Nat) : Nat :=
  if total = 0 then 10000000
  else match ended with
    | none => 10000000
    | some e =>
      if e < started then 10000000
      else
        let p := min ((e - started) * 1000) (2 ^ 64 - 1) / total
        if 0 < p then p else 10000000

/-- scheduler/recording.rs:135-166: the times the replay clock steps through (`none` = refused). -/
def timesOf (r : SRec) : Option (List Nat) :=
  if 100000000 < r.total then none
  else some ((List.range r.total).map fun i => i * periodNs r.started r.ended r.total)

/-- clock.rs:196-201 `ReplayClock`. -/
structure RClock where
  times : List Nat
  idx : Nat
deriving DecidableEq, Repr

/-- clock.rs:228-237 `now`. -/
def RClock.now (c : RClock) : Nat := (c.times[c.idx]?).getD ((c.times.getLast?).getD 0)

/-- clock.rs:240-246 `advance`. -/
def RClock.advance (c : RClock) : RClock :=
  if c.idx < c.times.length - 1 then { c with idx := c.idx + 1 } else c

/-- `k` ticks of the clock. -/
def RClock.advances (c : RClock) : Nat → RClock
  | 0 => c
  | k + 1 => (c.advances k).advance

/-- scheduler/recording.rs:184-196, 208: the priority of a node: its place in the first recorded order,
which holds node names, looked up by node id. -/
def prioOf (r : SRec) (nodeId : Bytes) : Nat :=
  match r.order with
  | [] => 0
  | o :: _ => ((o.zipIdx.reverse.find? fun p => p.1 = nodeId).map Prod.snd).getD 0

/- The debugger. -/

/-- record_replay.rs:1247-1260 `WatchExpression`. -/
structure Watch where
  id : Bytes
  topic : Bytes
  onInput : Bool
  off : Option Nat
  len : Option Nat
deriving DecidableEq, Repr

/-- record_replay.rs:1292-1323 `evaluate`, the bytes. `offset + length` is taken not to overflow. -/
def Watch.eval (w : Watch) (s : Snap) : Option Bytes :=
  match Map.get (if w.onInput then s.ins else s.outs) w.topic with
  | none => none
  | some d =>
    match w.off, w.len with
    | some o, some l => if o + l ≤ d.length then some ((d.drop o).take l) else none
    | some o, none => if o < d.length then some (d.drop o) else none
    | none, _ => some d

/-- record_replay.rs:1228-1243 `BreakpointCondition`. -/
inductive Cond
  | atTick (t : Nat)
  | tickEquals (t : Nat)
  | hasData (topic : Bytes)
  | outMatches (topic pattern : Bytes)
  | onError
  | afterTicks (n : Nat)
  | expr (w : Watch)
deriving DecidableEq, Repr

/-- record_replay.rs:1397-1408 `Breakpoint` without its name. -/
structure Bp where
  id : Nat
  cond : Cond
  on : Bool
  hits : Nat
deriving DecidableEq, Repr

/-- `to_lowercase` on ASCII. -/
def lower (b : UInt8) : UInt8 := if 65 ≤ b ∧ b ≤ 90 then b + 32 else b

/-- record_replay.rs:1442-1452: a topic name that contains "error". -/
def errName (t : Bytes) : Bool := decide ([101, 114, 114, 111, 114] <:+: t.map lower)

/-- record_replay.rs:1427-1460 `should_trigger`, the condition; `before` is the tick shown before this
step. -/
def Cond.holds (c : Cond) (s : Snap) (before : Nat) : Bool :=
  match c with
  | .atTick t => decide (s.tick = t)
  | .tickEquals t => decide (s.tick = t)
  | .hasData k => Map.has s.ins k || Map.has s.outs k
  | .outMatches k p => decide (Map.get s.outs k = some p)
  | .onError => (Map.keys s.outs).any errName || (Map.keys s.ins).any errName
  | .afterTicks n => decide (before + n ≤ s.tick)
  | .expr w => (w.eval s).isSome

/-- record_replay.rs:1427-1460 `should_trigger`. -/
def Bp.fires (b : Bp) (s : Snap) (before : Nat) : Bool := b.on && b.cond.holds s before

/-- record_replay.rs:1382-1393 `DebuggerState`. -/
inductive DSt | running | paused | stepF | stepB | stopped
deriving DecidableEq, Repr

/-- record_replay.rs:1488-1505 `ReplayDebugger`. `hit` is the id and tick of the last `BreakpointHit`
event; other events are left out. -/
structure Dbg where
  x : Replayer
  st : DSt
  bps : List Bp
  watches : List Watch
  next : Nat
  hit : Option (Nat × Nat)
deriving DecidableEq, Repr

/-- record_replay.rs:1509-1520 `new`. -/
def Dbg.new (x : Replayer) : Dbg := ⟨x, .paused, [], [], 1, none⟩

/-- record_replay.rs:1556-1561 `add_breakpoint`. -/
def Dbg.addBp (d : Dbg) (c : Cond) : Nat × Dbg :=
  (d.next, { d with next := d.next + 1, bps := d.bps ++ [⟨d.next, c, true, 0⟩] })

/-- record_replay.rs:1573-1580 `remove_breakpoint`: the first with that id. -/
def Dbg.removeBp (d : Dbg) (id : Nat) : Dbg :=
  { d with bps := d.bps.eraseP fun b => b.id = id }

/-- Change the first breakpoint with that id. -/
def setOn (id : Nat) (on : Bool) : List Bp → List Bp
  | [] => []
  | b :: l => if b.id = id then { b with on := on } :: l else b :: setOn id on l

/-- record_replay.rs:1583-1590 `set_breakpoint_enabled`. -/
def Dbg.enableBp (d : Dbg) (id : Nat) (on : Bool) : Dbg := { d with bps := setOn id on d.bps }

/-- record_replay.rs:1832-1840: count the hits. -/
def countHits (s : Snap) (before : Nat) (l : List Bp) : List Bp :=
  l.map fun b => if b.fires s before then { b with hits := b.hits + 1 } else b

/-- record_replay.rs:1830-1850: the breakpoint part of `step_internal`. -/
def Dbg.check (d : Dbg) (before : Nat) : Dbg :=
  match d.x.cur with
  | none => d
  | some s =>
    let d1 := { d with bps := countHits s before d.bps }
    match d.bps.find? fun b => b.fires s before with
    | none => d1
    | some b => { d1 with st := .paused, hit := some (b.id, d.x.tick) }

/-- record_replay.rs:1796-1854 `step_internal`. -/
def Dbg.stepInternal (d : Dbg) (chk : Bool) : Bool × Dbg :=
  if d.x.finished then (false, { d with st := .stopped })
  else if d.x.advance.1 then
    let d1 := { d with x := d.x.advance.2 }
    (true, if chk then d1.check d.x.tick else d1)
  else (false, { d with st := .stopped })

/-- record_replay.rs:1680-1684: the loop of `continue_execution`; `fuel` bounds it, each turn advances. -/
def Dbg.contLoop : Nat → Dbg → Dbg
  | 0, d => d
  | fuel + 1, d =>
    if d.st = .running then
      if (d.stepInternal true).1 then Dbg.contLoop fuel (d.stepInternal true).2 else (d.stepInternal true).2
    else d

/-- record_replay.rs:1672-1687 `continue_execution`. -/
def Dbg.cont (d : Dbg) : Dbg := Dbg.contLoop (d.x.r.snaps.length + 1) { d with st := .running }

/-- record_replay.rs:1690-1703 `step_forward`. -/
def Dbg.stepForward (d : Dbg) : Bool × Dbg :=
  let q := Dbg.stepInternal { d with st := .stepF } false
  (q.1, { q.2 with st := .paused })

/-- record_replay.rs:1721-1729: the last of the leading snapshots that lie before `t`. -/
def prevTick (t : Nat) (l : List Snap) : Option Nat :=
  (l.takeWhile fun s => s.tick < t).getLast?.map Snap.tick

/-- record_replay.rs:1706-1744 `step_backward`. -/
def Dbg.stepBackward (d : Dbg) : Bool × Dbg :=
  match prevTick d.x.tick d.x.r.snaps with
  | none => (false, { d with st := .paused })
  | some t => (true, { d with x := (d.x.seek t).2, st := .paused })

/-- record_replay.rs:1770-1781 `seek`. -/
def Dbg.seek (d : Dbg) (t : Nat) : Bool × Dbg := ((d.x.seek t).1, { d with x := (d.x.seek t).2 })

/-- record_replay.rs:1784-1792 `reset`. -/
def Dbg.reset (d : Dbg) : Dbg := { d with x := d.x.reset, st := .paused }

/-- record_replay.rs:1892-1907 `DebugSessionState`: what is kept. -/
structure Session where
  tick : Nat
  bps : List Bp
  watches : List Watch
deriving DecidableEq, Repr

/-- record_replay.rs:1965-1973 `update_from_debugger`. -/
def Dbg.save (d : Dbg) : Session := ⟨d.x.tick, d.bps, d.watches⟩

/-- record_replay.rs:1946-1951: restore the breakpoints and the id counter. -/
def restoreBps (d : Dbg) (l : List Bp) : Dbg :=
  l.foldl (fun d b => { d with bps := d.bps ++ [b], next := if d.next ≤ b.id then b.id + 1 else d.next }) d

/-- record_replay.rs:1942-1962 `create_debugger`, on the loaded recording. -/
def Session.open (s : Session) (r : Rec) : Dbg :=
  let d := restoreBps (Dbg.new (Replayer.new r)) s.bps
  ({ d with watches := d.watches ++ s.watches }.seek s.tick).2

/- Comparing two recordings. -/

/-- record_replay.rs:1164-1182 `RecordingDiff`. -/
inductive Diff
  | output (tick : Nat) (topic : Bytes)
  | missingOutput (tick : Nat) (topic : Bytes) (recording : Nat)
  | missingTick (tick : Nat) (recording : Nat)
deriving DecidableEq, Repr

/-- record_replay.rs:1086-1089: the map from tick to snapshot; a later snapshot of the same tick wins. -/
def byTick (l : List Snap) (t : Nat) : Option Snap := l.reverse.find? fun s => s.tick = t

/-- record_replay.rs:1113-1145: two snapshots of one tick. -/
def diffSnap (t : Nat) (a b : Snap) : List Diff :=
  (a.outs.filterMap fun kv =>
    match Map.get b.outs kv.1 with
    | some d2 => if kv.2 ≠ d2 then some (.output t kv.1) else none
    | none => some (.missingOutput t kv.1 1)) ++
  (b.outs.filterMap fun kv => if Map.has a.outs kv.1 then none else some (.missingOutput t kv.1 2))

/-- record_replay.rs:1109-1159: one tick. -/
def diffTick (a b : Rec) (t : Nat) : List Diff :=
  match byTick a.snaps t, byTick b.snaps t with
  | some s1, some s2 => diffSnap t s1 s2
  | some _, none => [.missingTick t 2]
  | none, some _ => [.missingTick t 1]
  | none, none => []

/-- record_replay.rs:1091-1105: the ticks both recordings span. (The order in which the differences
are listed is left out: the code sorts the ticks.) -/
def diffTicks (a b : Rec) : List Nat :=
  ((a.snaps.map Snap.tick ++ b.snaps.map Snap.tick).filter fun t =>
    decide (max a.first b.first ≤ t ∧ t ≤ min a.last b.last)).dedup

/-- record_replay.rs:1079-1160 `diff_recordings`. -/
def diff (a b : Rec) : List Diff := (diffTicks a b).flatMap (diffTick a b)

end Horus.Replay
