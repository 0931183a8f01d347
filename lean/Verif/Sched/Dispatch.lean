import Verif.Sched.GraphProps
/-
Model of the parallel executor, horus_core/src/scheduling/scheduler/mod.rs:5109-5339
`execute_ready_dispatch`, one transition per access to the shared counters and queue. Workers are
numbered; a schedule is the list of worker numbers in the order they move. What a node does in its
tick is not modelled, only when it starts and finishes (panics are caught by `run_tick`, so a tick
always finishes). The clock, recording and per-node contexts are not modelled.
-/
namespace Horus.Sched.Dispatch
open Horus.Ring (upd upd_same upd_ne)
open Horus.Sched.Graph (predCount)

/-- The inputs of one dispatch: the graph's successor lists and counts (mod.rs:5126-5127), and which
nodes tick in this cycle (`should_tick`, mod.rs:5132-5135, 5185). -/
structure Job where
  n : Nat
  succ : Nat → List Nat
  dep : Nat → Nat
  ticks : Nat → Bool

/-- `fetch_sub(1)` on an `AtomicUsize`, which wraps.
Library function or literal as used by scheduling/scheduler/mod.rs:5109-5339. -/
def fetchSub (v : Nat) : Nat := if v = 0 then 2 ^ 64 - 1 else v - 1

/-- Counters after the skip pass: every node that will not tick releases its successors
(mod.rs:5194-5208). -/
def pending0 (j : Job) : Nat → Nat :=
  (List.range j.n).foldl
    (fun p i => if j.ticks i then p else (j.succ i).foldl (fun p c => upd p c (fetchSub (p c))) p)
    j.dep

/-- The seeded queue (mod.rs:5214-5218). -/
def queue0 (j : Job) : List Nat :=
  (List.range j.n).filter fun i => j.ticks i && pending0 j i == 0

/-- `total_to_tick` (mod.rs:5221). -/
def total (j : Job) : Nat := (List.range j.n).countP j.ticks

/-- `num_workers = min(total_to_tick, available_parallelism)` (mod.rs:5249-5253). -/
def workers (j : Job) (cores : Nat) : Nat := min (total j) cores

/-- Where a worker is (mod.rs:5273-5328): checking `completed`, waiting on the queue, inside a
node's tick, going through the successors, about to queue a successor, or gone. -/
inductive Pc where
  | check
  | recv
  | tick (i : Nat)
  | notify (i : Nat) (rest : List Nat)
  | send (c i : Nat) (rest : List Nat)
  | gone
deriving DecidableEq

/-- What is observable: a node's tick starts or finishes.
Schedules over the functions of scheduling/scheduler/mod.rs:5109-5339. -/
inductive Ev where
  | start (i : Nat)
  | finish (i : Nat)
deriving DecidableEq

/-- Where a node is in its life during this dispatch. Ghost: the program does not store it.
Ghost or helper of the model of scheduling/scheduler/mod.rs:5109-5339. -/
inductive Phase where
  | waiting
  | toSend (w : Nat)
  | queued
  | ticking (w : Nat)
  | notifying (w : Nat) (rest : List Nat)
  | done
deriving DecidableEq

/-- Shared state, workers, and the ghost log and phases.
Ghost or helper of the model of scheduling/scheduler/mod.rs:5109-5339. -/
structure St where
  pending : Nat → Nat
  queue : List Nat
  completed : Nat
  pc : Nat → Pc
  log : List Ev
  ph : Nat → Phase

/-- State when the workers are spawned (mod.rs:5260). -/
def St.init (j : Job) : St where
  pending := pending0 j
  queue := queue0 j
  completed := 0
  pc := fun _ => .check
  log := []
  ph := fun i => if i ∈ queue0 j then .queued else .waiting

/-- One move of worker `w`. Schedules over the functions of scheduling/scheduler/mod.rs:5109-5339. -/
def step (j : Job) (s : St) (w : Nat) : St :=
  match s.pc w with
  -- mod.rs:5275-5277
  | .check =>
    if total j ≤ s.completed then { s with pc := upd s.pc w .gone }
    else { s with pc := upd s.pc w .recv }
  -- mod.rs:5279-5283 (an empty queue times out and loops)
  | .recv =>
    match s.queue with
    | [] => { s with pc := upd s.pc w .check }
    | i :: q => { s with queue := q, pc := upd s.pc w (.tick i), log := s.log ++ [.start i], ph := upd s.ph i (.ticking w) }
  -- mod.rs:5305-5316
  | .tick i =>
    { s with pc := upd s.pc w (.notify i (j.succ i)), log := s.log ++ [.finish i], ph := upd s.ph i (.notifying w (j.succ i)) }
  -- mod.rs:5319-5325
  | .notify i (c :: rest) =>
    if j.ticks c then
      if s.pending c = 1 then
        { s with pending := upd s.pending c (fetchSub (s.pending c)), pc := upd s.pc w (.send c i rest), ph := upd (upd s.ph i (.notifying w rest)) c (.toSend w) }
      else
        { s with pending := upd s.pending c (fetchSub (s.pending c)), pc := upd s.pc w (.notify i rest), ph := upd s.ph i (.notifying w rest) }
    else { s with pc := upd s.pc w (.notify i rest), ph := upd s.ph i (.notifying w rest) }
  -- mod.rs:5324
  | .send c i rest =>
    { s with queue := s.queue ++ [c], pc := upd s.pc w (.notify i rest), ph := upd s.ph c .queued }
  -- mod.rs:5327
  | .notify i [] =>
    { s with completed := s.completed + 1, pc := upd s.pc w .check, ph := upd s.ph i .done }
  | .gone => s

/-- A schedule: moves of workers below `k`. Moves of other numbers do nothing (those workers do not
exist). Schedules over the functions of scheduling/scheduler/mod.rs:5109-5339. -/
def run (j : Job) (k : Nat) (s : St) : List Nat → St
  | [] => s
  | w :: ws => run j k (if w < k then step j s w else s) ws

/-- The graph data given to the executor is consistent: successor lists without repetition, below
`n`, counts equal to the number of predecessors, no cycle.
Ghost or helper of the model of scheduling/scheduler/mod.rs:5109-5339. -/
structure Job.Ok (j : Job) : Prop where
  nodup : ∀ p, (j.succ p).Nodup
  bound : ∀ p c, c ∈ j.succ p → p < j.n ∧ c < j.n
  dep : ∀ c, j.dep c = (List.range j.n).countP (fun p => decide (c ∈ j.succ p))
  acyclic : ∃ rank : Nat → Nat, ∀ p c, c ∈ j.succ p → rank p < rank c

/-- Sequential execution of the steps (mod.rs:2174-2193 `tick_once`, 5062-5074 deterministic mode):
the nodes that tick, in step order. -/
def sequential (steps : List (List Nat)) (ticks : Nat → Bool) : List Nat :=
  steps.flatten.filter ticks

end Horus.Sched.Dispatch
