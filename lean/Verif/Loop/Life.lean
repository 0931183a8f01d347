/-!
Life of a scheduler's nodes: every callback the scheduler makes on its nodes (`init`, `tick`,
`shutdown`) over any sequence of API calls (`add`, `tick_once`, `run`, `stop`, operator
pause/resume), with the executor threads interleaved arbitrarily.

Sources: horus_core/src/scheduling/scheduler/mod.rs, rt_executor.rs, compute_executor.rs,
event_executor.rs, async_executor.rs, primitives.rs, types.rs.

Simplifications.  Node names are the numbers given by `add` (a duplicate name makes every run
return an error after initialisation: scheduler/mod.rs:2133-2145, 2474-2486).  Failure-policy
back-off, health suppression, rate limits, load shedding and event arrival only ever make a node
skip a pass: they are the environment's choice whether to perform `arm` (pass the gates) at all
and whether to `drop` an armed node.  A thread's check of `running` and its per-node gates are
one step (`arm`): the gates read state the same thread owns, except the operator pause flag.
-/

namespace Horus.Loop

/-- Execution classes (types.rs `ExecutionClass`; `main` is `BestEffort`). -/
inductive Cls
  | main | rt | compute | event | async
  deriving DecidableEq, Repr

/-- Outcome of `Node::init`: success, or an error by severity (a panic is converted to
`NodeError::InitPanic`, scheduler/mod.rs:3009-3018). -/
inductive InitRes
  | ok | fatal | transient | other
  deriving DecidableEq, Repr

/-- What a node's `tick()` led to (scheduler/mod.rs:4478-4720, 4864-5036; rt_executor.rs:295-620):
nothing; deadline `Miss::Skip`; the node was stopped; the node was killed (`shutdown()` called,
then stopped: primitives.rs:148-163, rt_executor.rs:332-351); the tick panicked under a fatal
failure policy; it panicked under a restart policy; it panicked and `on_error` panicked too. -/
inductive Eff
  | none | skip | stop | kill | fatal | restart | errPanic
  deriving DecidableEq, Repr

/-- Callbacks, as the nodes see them, and the begin of each API call. -/
inductive Ev
  | call
  | init (i : Nat) (r : InitRes)
  | tick (i : Nat)
  | shutdown (i : Nat)
  deriving DecidableEq, Repr

/-- A registered node (types.rs:470-560): its execution class and the flags `initialized`,
`is_stopped`, `is_paused` (the one-pass `Miss::Skip` pause), the operator pause
(`NodeControl::paused`, types.rs:803), whether it is on an executor, whether it passed the gates
of the current pass, whether the current main-loop round has considered it, and how many times
`init` was called. -/
structure Node where
  id : Nat
  cls : Cls
  inited : Bool := false
  stopped : Bool := false
  paused : Bool := false
  held : Bool := false
  moved : Bool := false
  armed : Bool := false
  seen : Bool := false
  inits : Nat := 0
  deriving DecidableEq, Repr

/-- Which thread ticks the node: its class's executor once it was moved there
(scheduler/mod.rs:2567-2571), the main thread otherwise. -/
def Node.owner (n : Node) : Cls := if n.moved then n.cls else .main

/-- Where the scheduler's own thread is: outside any call, inside `tick_once`, at the top of the
main loop, inside one round of the main loop. -/
inductive Phase
  | idle | once | top | round
  deriving DecidableEq, Repr

/-- The scheduler: nodes in `Scheduler::nodes` order, the shared `running` flag (created true,
only ever stored false: scheduler/mod.rs:1926, 2853, 2974, 5031), `initialized` (2064, 2103), the
filter of the current call, whether the control map exists (2666), and the callback log. -/
structure Sys where
  nodes : List Node := []
  next : Nat := 0
  running : Bool := true
  finalized : Bool := false
  filt : Nat → Bool := fun _ => true
  controls : Bool := false
  phase : Phase := .idle
  lost : List Nat := []
  log : List Ev := []

/-- `initialize_filtered_nodes` (scheduler/mod.rs:2995-3096): each uninitialised node in the
filter is initialised in order; a fatal failure stops the scheduler and abandons the pass. The
oracle `R i k` is the outcome of node `i`'s `k`-th `init`. Returns nodes, callbacks, fatal. -/
def initPass (R : Nat → Nat → InitRes) (f : Nat → Bool) :
    List Node → List Node × List Ev × Bool
  | [] => ([], [], false)
  | n :: ns =>
    if f n.id && !n.inited then
      match R n.id n.inits with
      | .ok =>
        let p := initPass R f ns
        ({ n with inited := true, inits := n.inits + 1 } :: p.1,
          Ev.init n.id .ok :: p.2.1, p.2.2)
      | .fatal => ({ n with inits := n.inits + 1 } :: ns, [Ev.init n.id .fatal], true)
      | r =>
        let p := initPass R f ns
        ({ n with inits := n.inits + 1 } :: p.1, Ev.init n.id r :: p.2.1, p.2.2)
    else
      let p := initPass R f ns
      (n :: p.1, p.2.1, p.2.2)

/-- One node of `reinit_pending_nodes` (scheduler/mod.rs:3143-3200): nodes on executors are not in
`Scheduler::nodes` and so are not considered; the call's filter is not consulted. -/
def reinitNode (R : Nat → Nat → InitRes) (n : Node) : Node × List Ev :=
  if !n.moved && !n.stopped && !n.paused && !n.inited then
    match R n.id n.inits with
    | .ok => ({ n with inited := true, inits := n.inits + 1 }, [Ev.init n.id .ok])
    | .transient => ({ n with inits := n.inits + 1 }, [Ev.init n.id .transient])
    | r => ({ n with stopped := true, inits := n.inits + 1 }, [Ev.init n.id r])
  else (n, [])

/-- `reinit_pending_nodes` (scheduler/mod.rs:3143-3200). -/
def reinitPass (R : Nat → Nat → InitRes) (ns : List Node) : List Node × List Ev :=
  (ns.map fun n => (reinitNode R n).1, ns.flatMap fun n => (reinitNode R n).2)

/-- `shutdown_filtered_nodes` (scheduler/mod.rs:3675-3723): `shutdown()` on every initialised node
in the filter; a panic is caught and the pass goes on; `initialized` is not cleared. -/
def shutdownPass (f : Nat → Bool) (ns : List Node) : List Ev :=
  (ns.filter fun n => f n.id && n.inited).map fun n => Ev.shutdown n.id

/-- Order of `Scheduler::nodes` once the executors have handed their nodes back
(scheduler/mod.rs:2852-2869). -/
def regroup (ns : List Node) : List Node :=
  ns.filter (fun n => n.owner = .main) ++ ns.filter (fun n => n.owner = .rt) ++
    ns.filter (fun n => n.owner = .compute) ++ ns.filter (fun n => n.owner = .event) ++
    ns.filter (fun n => n.owner = .async)

/-- The per-node gates before a tick. Main thread: `should_tick_node` (scheduler/mod.rs:4165-4250).
RT: rt_executor.rs:764-787. Compute, event, async: compute_executor.rs:128-134,
event_executor.rs:164-171, async_executor.rs:136-142 (they do not read the operator pause). -/
def tryArm (f : Nat → Bool) (n : Node) : Node :=
  match n.owner with
  | .main =>
    if n.stopped || n.held then { n with seen := true }
    else if n.paused then { n with paused := false, seen := true }
    else if f n.id && n.inited then { n with armed := true, seen := true }
    else { n with seen := true }
  | .rt =>
    if !n.inited || n.stopped || n.held then n
    else if n.paused then { n with paused := false }
    else { n with armed := true }
  | _ =>
    if !n.inited || n.stopped || n.paused then n else { n with armed := true }

/-- Apply `g` to the node called `i`. -/
def onId (i : Nat) (g : Node → Node) (ns : List Node) : List Node :=
  ns.map fun n => if n.id = i then g n else n

/-- First-call initialisation (`finalize_and_init`, scheduler/mod.rs:2063-2104). -/
def finalize (R : Nat → Nat → InitRes) (s : Sys) : Sys :=
  if s.finalized then s
  else
    let p := initPass R (fun _ => true) s.nodes
    { s with nodes := p.1, log := s.log ++ p.2.1, running := s.running && !p.2.2, finalized := true }

/-- What happens after node `n`'s tick returned with effect `e` (the log already has the tick).
Main thread: process_tick_result and handle_tick_failure (scheduler/mod.rs:4478-4720, 4977-5036;
`on_error` is guarded, a fatal failure ends `tick_once` at once, 2183-2188). RT thread:
rt_executor.rs:295-640 and 819-838 (a panic outside the tick stops that node). Compute and async
threads: an unguarded `on_error` panic ends the executor thread and its nodes are not given back
(compute_executor.rs:78-104, 402; async_executor.rs:357); event: that node's watcher thread
(event_executor.rs:101-113, 293). -/
def afterTick (R : Nat → Nat → InitRes) (s : Sys) (n : Node) : Eff → Sys
  | .none => s
  | .skip =>
    if n.owner = .main ∨ n.owner = .rt then
      { s with nodes := onId n.id (fun m => { m with paused := true }) s.nodes }
    else s
  | .stop => { s with nodes := onId n.id (fun m => { m with stopped := true }) s.nodes }
  | .kill =>
    if n.owner = .main ∨ n.owner = .rt then
      { s with nodes := onId n.id (fun m => { m with stopped := true }) s.nodes,
               log := s.log ++ [Ev.shutdown n.id] }
    else s
  | .fatal =>
    if s.phase = .once then
      { s with running := false, phase := .idle,
               nodes := s.nodes.map fun m => { m with armed := false } }
    else { s with running := false }
  | .restart =>
    { s with nodes := onId n.id (fun m => { m with inits := m.inits + 1 }) s.nodes,
             log := s.log ++ [Ev.init n.id (R n.id n.inits)] }
  | .errPanic =>
    match n.owner with
    | .main => s
    | .rt => { s with nodes := onId n.id (fun m => { m with stopped := true }) s.nodes }
    | .event =>
      { s with nodes := s.nodes.filter (fun m => m.id ≠ n.id), lost := s.lost ++ [n.id] }
    | c =>
      { s with nodes := s.nodes.filter (fun m => m.owner ≠ c),
               lost := s.lost ++ (s.nodes.filter (fun m => m.owner = c)).map (·.id) }

/-- What can happen next: API calls, operator commands, the main loop's own steps, and steps of
the threads that tick nodes. -/
inductive Act
  | add (c : Cls)
  | stop
  | tickOnce
  | endOnce
  | run (det : Bool) (f : Nat → Bool)
  | pause (i : Nat)
  | resume (i : Nat)
  | round
  | endRound
  | arm (i : Nat)
  | drop (i : Nat)
  | tick (i : Nat) (e : Eff)
  | halt (i : Nat)
  | finish

/-- One step; an action that is not enabled changes nothing. -/
def step (R : Nat → Nat → InitRes) (s : Sys) : Act → Sys
  | .add c =>
    -- `add(..).build()` (scheduler/mod.rs add_configured)
    if s.phase = .idle then
      { s with nodes := s.nodes ++ [{ id := s.next, cls := c }], next := s.next + 1 }
    else s
  | .stop => { s with running := false }   -- scheduler/mod.rs:1925-1927, Ctrl-C, e-stop
  | .tickOnce =>
    -- scheduler/mod.rs:2131-2170 (`running` is not consulted)
    if s.phase = .idle then
      let t := finalize R { s with log := s.log ++ [Ev.call] }
      let p := reinitPass R t.nodes
      { t with
        nodes := p.1.map (fun n => { n with seen := false }), log := t.log ++ p.2,
        filt := fun _ => true, phase := .once }
    else s
  | .endOnce =>
    if s.phase = .once ∧ ∀ n ∈ s.nodes, n.armed = false then { s with phase := .idle } else s
  | .run det f =>
    -- scheduler/mod.rs:2468-2835: initialise again, then move nodes to their executors
    if s.phase = .idle then
      let t := finalize R { s with log := s.log ++ [Ev.call] }
      let p := initPass R f t.nodes
      { t with
        nodes := if det then p.1 else p.1.map (fun n => { n with moved := decide (n.cls ≠ .main), held := false }),
        log := t.log ++ p.2.1, running := t.running && !p.2.2,
        controls := t.controls || !det, filt := f, phase := .top }
    else s
  | .pause i =>
    -- process_control_commands (scheduler/mod.rs:4024-4057) at the top of a round
    if s.phase = .top ∧ s.controls = true then
      { s with nodes := onId i (fun n => { n with held := true }) s.nodes }
    else s
  | .resume i =>
    if s.phase = .top ∧ s.controls = true then
      { s with nodes := onId i (fun n => { n with held := false }) s.nodes }
    else s
  | .round =>
    -- scheduler/mod.rs:2838-2845
    if s.phase = .top ∧ s.running = true then
      let p := reinitPass R s.nodes
      { s with nodes := p.1.map (fun n => { n with seen := false }), log := s.log ++ p.2,
               phase := .round }
    else s
  | .endRound =>
    if s.phase = .round ∧ ∀ n ∈ s.nodes, n.moved = false → n.armed = false then
      { s with phase := .top }
    else s
  | .arm i =>
    { s with
      nodes := onId i (fun n =>
        if n.armed then n
        else if n.moved then
          (if s.running && (s.phase == .top || s.phase == .round) then tryArm s.filt n else n)
        else if (s.phase == .once || s.phase == .round) && !n.seen then tryArm s.filt n
        else n) s.nodes }
  | .drop i => { s with nodes := onId i (fun n => { n with armed := false }) s.nodes }
  | .tick i e =>
    match s.nodes.find? (fun n => n.id == i && n.armed) with
    | none => s
    | some n =>
      afterTick R
        { s with nodes := onId i (fun m => { m with armed := false }) s.nodes,
                 log := s.log ++ [Ev.tick i] } n e
  | .halt i =>
    -- a safing callback panicked (primitives.rs:52-56, scheduler/mod.rs:3286-3289)
    { s with nodes := onId i (fun n => if n.armed then n else { n with stopped := true }) s.nodes }
  | .finish =>
    -- scheduler/mod.rs:2851-2884: the executors are joined first
    if s.phase = .top ∧ ∀ n ∈ s.nodes, n.armed = false then
      let ns := regroup s.nodes
      { s with
        running := false, phase := .idle,
        nodes := ns.map (fun n => { n with moved := false }),
        log := s.log ++ shutdownPass s.filt ns }
    else s

/-- A fresh scheduler (scheduler/mod.rs `Scheduler::new`). -/
def Sys.init : Sys := {}

/-- Any history of the scheduler. -/
def run (R : Nat → Nat → InitRes) (s : Sys) (as : List Act) : Sys := as.foldl (step R) s

end Horus.Loop
