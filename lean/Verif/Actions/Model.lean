import Verif.Common.Map
/-
Model of the action server (horus_core/src/actions/server.rs, with the wire types of
horus_core/src/actions/types.rs).

Modelled: handle_goal, admit_goal, accept_goal, complete_goal, the panic path, drain_goal_events,
handle_cancel (with its recursion), check_timeouts, process_goal_queue, the order of one tick,
the goal threads (they only push to the inbox), the metrics, and stop_all_goals.
Not modelled: payloads, log lines, the topics themselves (a publication is an entry of `out`),
feedback rate limiting.
Simplified: the clock is read once per tick; `None` for max_concurrent_goals is "no limit"
(the code uses usize::MAX).  HashMap iteration order is the order of the association list and the
`rehash` action changes it arbitrarily between ticks.
-/
namespace Horus.Actions
open Horus

/-- GoalStatus as published (types.rs 78-93; `Pending` is never published by the server). -/
inductive Status where
  | active | succeeded | aborted | canceled | preempted | rejected
  deriving DecidableEq, Repr

/-- `GoalStatus::is_terminal` (types.rs 101-111). -/
def Status.terminal : Status → Bool
  | .active => false
  | _ => true

/-- The four ways an execute callback can return (server.rs 91-102). -/
inductive Outcome where
  | succeeded | aborted | canceled | preempted
  deriving DecidableEq, Repr

/-- `GoalOutcome::status` (server.rs 106-113). -/
def Outcome.status : Outcome → Status
  | .succeeded => .succeeded
  | .aborted => .aborted
  | .canceled => .canceled
  | .preempted => .preempted

/-- PreemptionPolicy (types.rs 321-341). -/
inductive Policy where
  | rejectNew | preemptOld | priority | queue (maxSize : Nat)
  deriving DecidableEq, Repr

/-- ActionServerConfig and whether an execute callback was installed (server.rs 365-413). -/
structure Config where
  max : Option Nat
  policy : Policy
  timeout : Option Nat
  hasExec : Bool

/-- GoalRequest; `valid` is the answer of the user's goal callback for this payload
(server.rs 544-548). -/
structure Req where
  id : Nat
  prio : Nat
  valid : Bool
  deriving DecidableEq, Repr

/-- GoalState (server.rs 270-285); `received_at` and `started_at` are the same instant
(server.rs 709-721). -/
structure GState where
  prio : Nat
  cancel : Bool
  preempt : Bool
  started : Nat
  signalled : Bool
  abandoned : Bool
  deriving DecidableEq, Repr

/-- ServerEvent (server.rs 63-76). -/
inductive Ev where
  | feedback (id v : Nat)
  | completed (id : Nat) (o : Outcome)
  | panicked (id : Nat)
  deriving DecidableEq, Repr

/-- A publication on one of the action's topics (server.rs 1150-1163, 914-916). -/
inductive Pub where
  | status (id : Nat) (s : Status)
  | result (id : Nat) (s : Status)
  | feedback (id v : Nat)
  deriving DecidableEq, Repr

/-- ActionServerNode (server.rs 435-483).  `running` are the goal threads that have not pushed
their final event, `events` the inbox.  `got`, `late` and `qcan` are ghosts: ids received, ids
whose thread ended after the server had given up on them, and queued goals cancelled. -/
structure Server where
  active : Map Nat GState := []
  queue : List Req := []
  threads : List Nat := []
  running : List Nat := []
  events : List Ev := []
  out : List Pub := []
  received : Nat := 0
  accepted : Nat := 0
  rejected : Nat := 0
  succeeded : Nat := 0
  aborted : Nat := 0
  canceled : Nat := 0
  preempted : Nat := 0
  got : List Nat := []
  late : List Nat := []
  qcan : Nat := 0
  deriving DecidableEq, Repr

/-- `Self::new` (server.rs 492-525). -/
def init : Server := {}

/-- The outside world during one tick: the clock and whether `spawn` succeeds for a goal.
Source: actions/server.rs, the tick and the threads it is driven by. -/
structure Env where
  now : Nat
  spawn : Nat → Bool

/-- `occupied_slots` (server.rs 1128-1130). -/
def occupied (s : Server) : Nat := s.active.countP fun p => !p.2.abandoned

/-- `pending_preemptions` (server.rs 811-816). -/
def pendingPre (s : Server) : Nat := s.active.countP fun p => p.2.preempt

/-- `occupied_slots() >= max_concurrent_goals` (server.rs 585-590, 1134-1136). -/
def full (cfg : Config) (s : Server) : Bool :=
  match cfg.max with
  | none => false
  | some m => decide (m ≤ occupied s)

/-- `Iterator::min_by_key`: the first of the least elements.
Library function or literal as used by actions/server.rs, the tick and the threads it is driven by. -/
def minBy {α : Type} (f : α → Nat) : List α → Option α
  | [] => none
  | a :: l =>
    match minBy f l with
    | none => some a
    | some b => if f a ≤ f b then some a else some b

/-- `Iterator::max_by_key`: the last of the greatest elements.
Library function or literal as used by actions/server.rs, the tick and the threads it is driven by. -/
def maxBy {α : Type} (f : α → Nat) : List α → Option α
  | [] => none
  | a :: l =>
    match maxBy f l with
    | none => some a
    | some b => if f a ≤ f b then some b else some a

/-- `get_oldest_goal_id` (server.rs 647-652). -/
def oldest (s : Server) : Option Nat := (minBy (fun p => p.2.started) s.active).map Prod.fst

/-- `get_lowest_priority_goal` (server.rs 655-660): a higher number is a lower priority. -/
def lowest (s : Server) : Option (Nat × Nat) :=
  (maxBy (fun p => p.2.prio) s.active).map fun p => (p.1, p.2.prio)

/-- Change the state stored under `id`, if any.
Ghost or helper of the model of actions/server.rs, the tick and the threads it is driven by. -/
def modify (m : Map Nat GState) (id : Nat) (f : GState → GState) : Map Nat GState :=
  m.map fun p => (p.1, if p.1 = id then f p.2 else p.2)

/-- `preempt_goal` (server.rs 818-823). -/
def preempt (id : Nat) (s : Server) : Server :=
  { s with active := modify s.active id fun g => { g with preempt := true } }

/-- `publish_status` (server.rs 1158-1163). -/
def publish (id : Nat) (st : Status) (s : Server) : Server :=
  { s with out := s.out ++ [Pub.status id st] }

/-- GoalAdmission (server.rs 80-88). -/
inductive Admission where
  | accept | queued | reject
  deriving DecidableEq, Repr

/-- `admit_goal` (server.rs 584-644). -/
def admit (cfg : Config) (r : Req) (s : Server) : Admission × Server :=
  if full cfg s = false then (.accept, s)
  else match cfg.policy with
    | .rejectNew => (.reject, s)
    | .preemptOld =>
      if 0 < pendingPre s then (.reject, s)
      else match oldest s with
        | some v => (.accept, preempt v s)
        | none => (.reject, s)
    | .priority =>
      match lowest s with
      | some (v, p) => if r.prio < p then (.accept, preempt v s) else (.reject, s)
      | none => (.reject, s)
    | .queue n =>
      if s.queue.length < n then (.queued, { s with queue := s.queue ++ [r] })
      else (.reject, s)

/-- `accept_goal` (server.rs 663-792). Inserting a handle for an id that already has one would
replace it, which drops (detaches) the old thread. -/
def accept (env : Env) (cfg : Config) (r : Req) (s : Server) : Server :=
  if s.active.has r.id then publish r.id .rejected s
  else
    let g : GState := { prio := r.prio, cancel := false, preempt := false, started := env.now, signalled := false, abandoned := false }
    let s1 := publish r.id .active { s with accepted := s.accepted + 1, active := s.active.set r.id g }
    if cfg.hasExec then
      if env.spawn r.id then
        { s1 with
          running := s1.running ++ [r.id]
          threads := if r.id ∈ s1.threads then s1.threads else s1.threads ++ [r.id] }
      else
        publish r.id .aborted { s1 with active := s1.active.del r.id, aborted := s1.aborted + 1 }
    else s1

/-- `reject_goal` (server.rs 795-805). -/
def reject (id : Nat) (s : Server) : Server :=
  publish id .rejected { s with rejected := s.rejected + 1 }

/-- `handle_goal` (server.rs 533-578). -/
def handleGoal (env : Env) (cfg : Config) (r : Req) (s : Server) : Server :=
  let s := { s with received := s.received + 1, got := s.got ++ [r.id] }
  if r.valid then
    match admit cfg r s with
    | (.accept, s') => accept env cfg r s'
    | (.queued, s') => s'
    | (.reject, s') => reject r.id s'
  else reject r.id s

/-- The loop of `process_goal_queue` (server.rs 1133-1143) over the queue `q`. -/
def processQueueFrom (env : Env) (cfg : Config) : List Req → Server → Server
  | [], s => { s with queue := [] }
  | r :: q, s =>
    if full cfg s then { s with queue := r :: q }
    else processQueueFrom env cfg q (accept env cfg r s)

/-- `process_goal_queue` (server.rs 1133-1143). -/
def processQueue (env : Env) (cfg : Config) (s : Server) : Server :=
  processQueueFrom env cfg s.queue s

/-- Has the server given up on this goal (ghost bookkeeping for `late`)?.
Ghost or helper of the model of actions/server.rs, the tick and the threads it is driven by. -/
def isAbandoned (s : Server) (id : Nat) : Bool :=
  match s.active.get id with
  | some g => g.abandoned
  | none => false

/-- `complete_goal` (server.rs 826-870). -/
def complete (env : Env) (cfg : Config) (id : Nat) (o : Outcome) (s : Server) : Server :=
  let s := { s with
    succeeded := s.succeeded + (if o = Outcome.succeeded then 1 else 0)
    aborted := s.aborted + (if o = Outcome.aborted then 1 else 0)
    canceled := s.canceled + (if o = Outcome.canceled then 1 else 0)
    preempted := s.preempted + (if o = Outcome.preempted then 1 else 0)
    late := if isAbandoned s id then s.late ++ [id] else s.late }
  let s := { s with active := s.active.del id, out := s.out ++ [Pub.result id o.status] }
  processQueue env cfg (publish id o.status s)

/-- `abort_goal_without_result` (server.rs 885-897). -/
def abortNoResult (env : Env) (cfg : Config) (id : Nat) (s : Server) : Server :=
  let s := { s with
    aborted := s.aborted + 1
    late := if isAbandoned s id then s.late ++ [id] else s.late
    active := s.active.del id }
  processQueue env cfg (publish id .aborted s)

/-- One iteration of the loop of `drain_goal_events` (server.rs 913-935). -/
def drainOne (env : Env) (cfg : Config) (s : Server) : Ev → Server
  | .feedback id v => { s with out := s.out ++ [Pub.feedback id v] }
  | .completed id o => complete env cfg id o { s with threads := s.threads.erase id }
  | .panicked id => abortNoResult env cfg id { s with threads := s.threads.erase id }

/-- `drain_goal_events` (server.rs 905-936): take the batch, then dispatch it. -/
def drain (env : Env) (cfg : Config) (s : Server) : Server :=
  s.events.foldl (drainOne env cfg) { s with events := [] }

/-- Remove the first queued request with this id (`position` and `VecDeque::remove`,
server.rs 989-1004). -/
def dequeue (id : Nat) : List Req → List Req
  | [] => []
  | r :: q => if r.id = id then q else r :: dequeue id q

/-- `handle_cancel` for a single goal (server.rs 979-1060); `ok` is the cancel callback. -/
def cancelOne (ok : Nat → Bool) (id : Nat) (s : Server) : Server :=
  if s.queue.any (fun r => r.id = id) then
    if ok id then
      publish id .canceled { s with queue := dequeue id s.queue, canceled := s.canceled + 1, qcan := s.qcan + 1 }
    else s
  else if s.active.has id then
    if ok id then { s with active := modify s.active id fun g => { g with cancel := true } }
    else s
  else s

/-- The nil UUID, reserved for cancel-all (types.rs 509-523). -/
def nil : Nat := 0

/-- `handle_cancel` (server.rs 958-1061) with the recursion of cancel-all made explicit: `fuel`
bounds the nesting of calls and `none` means that the nesting was exhausted. -/
def cancel (ok : Nat → Bool) : Nat → Nat → Server → Option Server
  | 0, _, _ => none
  | fuel + 1, id, s =>
    if id = nil then
      (s.active.keys ++ s.queue.map Req.id).foldlM (fun s' i => cancel ok fuel i s') s
    else some (cancelOne ok id s)

/-- What `check_timeouts` does to one goal (server.rs 1087-1118). -/
def timeoutOne (t now : Nat) (g : GState) : GState :=
  if g.abandoned then g
  else if g.signalled = false then
    if t < now - g.started then { g with cancel := true, signalled := true } else g
  else if 2 * t < now - g.started then { g with abandoned := true }
  else g

/-- Goals given up by this call of `check_timeouts` (server.rs 1103-1105). -/
def givenUp (t now : Nat) (s : Server) : List Nat :=
  (s.active.filter fun p => !p.2.abandoned && (timeoutOne t now p.2).abandoned).map Prod.fst

/-- `check_timeouts` (server.rs 1064-1121). -/
def checkTimeouts (cfg : Config) (now : Nat) (s : Server) : Server :=
  match cfg.timeout with
  | none => s
  | some t =>
    { s with
      active := s.active.map fun p => (p.1, timeoutOne t now p.2)
      out := s.out ++ (givenUp t now s).map fun id => Pub.status id .aborted }

/-- What arrives during one tick: goals (the gateway's first, server.rs 1283-1311, then the
topic's, 1314-1323), cancels (1326-1335) and the cancel callback. -/
structure TickIn where
  env : Env
  goals : List Req
  cancels : List Nat
  cancelOk : Nat → Bool

/-- The nesting that suffices for every `handle_cancel` that returns at all
(`cancel_depth_two`). Ghost or helper of the model of actions/server.rs, the tick and the threads it is driven by. -/
def depth : Nat := 2

/-- `tick` (server.rs 1256-1339); `none` when a cancel request never returns. -/
def tick (cfg : Config) (i : TickIn) (s : Server) : Option Server :=
  let s := drain i.env cfg s
  let s := i.goals.foldl (fun s r => handleGoal i.env cfg r s) s
  (i.cancels.foldlM (fun s id => cancel i.cancelOk depth id s) s).map (checkTimeouts cfg i.env.now)

/-- Priority of a goal submitted through the JSON gateway: `as_u64().unwrap_or(128) as u8`
(server.rs 1289-1292). -/
def gatewayPrio (v : Option Nat) : Nat := v.getD 128 % 256

/-- What can happen: a tick, a goal thread emitting feedback, returning or panicking
(server.rs 753-772), and a change of hash order. -/
inductive Act where
  | tick (i : TickIn)
  | feedback (id v : Nat)
  | finish (id : Nat) (o : Outcome)
  | panic (id : Nat)
  | rehash (m : Map Nat GState)

/-- One step. A thread acts only while it is running.
Schedules over the functions of actions/server.rs, the tick and the threads it is driven by. -/
def step (cfg : Config) (a : Act) (s : Server) : Option Server :=
  match a with
  | .tick i => tick cfg i s
  | .feedback id v =>
    some (if id ∈ s.running then { s with events := s.events ++ [Ev.feedback id v] } else s)
  | .finish id o =>
    some (if id ∈ s.running then
      { s with running := s.running.erase id, events := s.events ++ [Ev.completed id o] } else s)
  | .panic id =>
    some (if id ∈ s.running then
      { s with running := s.running.erase id, events := s.events ++ [Ev.panicked id] } else s)
  | .rehash m => some (if m.Perm s.active then { s with active := m } else s)

/-- A history; `none` if some cancel request never returned.
Schedules over the functions of actions/server.rs, the tick and the threads it is driven by. -/
def run (cfg : Config) : List Act → Server → Option Server
  | [], s => some s
  | a :: as, s => (step cfg a s).bind (run cfg as)

/-- `stop_all_goals` (server.rs 944-955): joining waits for a thread, so the threads whose handle
is held have ended afterwards. -/
def stop (s : Server) : Server :=
  { s with
    running := s.running.diff s.threads
    threads := [], active := [], queue := [], events := [] }

/-! ### Observations -/

/-- Terminal statuses published for `id`.
Ghost or helper of the model of actions/server.rs, the tick and the threads it is driven by. -/
def terminals (s : Server) (id : Nat) : Nat :=
  s.out.countP fun p => match p with
    | .status i st => decide (i = id) && st.terminal
    | _ => false

/-- Goals with this id that are executing and have not been given up.
Ghost or helper of the model of actions/server.rs, the tick and the threads it is driven by. -/
def live (s : Server) (id : Nat) : Nat :=
  s.active.countP fun p => decide (p.1 = id) && !p.2.abandoned

/-- Goals with this id that wait in the queue.
Ghost or helper of the model of actions/server.rs, the tick and the threads it is driven by. -/
def waiting (s : Server) (id : Nat) : Nat := s.queue.countP fun r => decide (r.id = id)

/-- Requests received with this id.
Ghost or helper of the model of actions/server.rs, the tick and the threads it is driven by. -/
def submitted (s : Server) (id : Nat) : Nat := s.got.count id

end Horus.Actions
