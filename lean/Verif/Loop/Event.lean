import Verif.Common.Map
import Mathlib.Tactic.Common
import Mathlib.Data.List.Basic

/-!
Event-driven nodes (event_executor.rs, core/node.rs:550-595) and stale-subscription detection
(types.rs:615-730, scheduler/mod.rs:4575-4640).
-/

namespace Horus.Event

/-- The publishing calls of `Topic` (topic/mod.rs:1733, 2041, 2202). -/
inductive Api
  | send | trySend | sendBlocking
  deriving DecidableEq, Repr

/-- A watcher thread's own state (event_executor.rs:127-156): the last generation it has handled and
the number of ticks it has run. `seen` is `last_seen_generation`. -/
structure Watcher where
  seen : Nat := 0
  ticks : Nat := 0
  deriving DecidableEq, Repr

/-- Process state: `EVENT_NOTIFIER_REGISTRY` (core/node.rs:586-588; one key space for node names and
topic names), the notifier counters, the watcher threads, the shared `running` flag, and per topic
the header's `messages_total` and the messages that really reached the ring. Generation counters are
unbounded here; the source uses `u64`. -/
structure Sys where
  reg : Map String Nat := []
  gen : Nat → Nat := fun _ => 0
  ws : List Watcher := []
  running : Bool := true
  total : String → Nat := fun _ => 0
  delivered : String → Nat := fun _ => 0

/-- `NodeInfo::notify_event` (core/node.rs:568-580). -/
def Sys.notify (s : Sys) (name : String) : Sys :=
  match s.reg.get name with
  | some w => { s with gen := fun i => if i = w then s.gen i + 1 else s.gen i }
  | none => s

/-- What can happen: a watcher thread starts (event_executor.rs:54-90, 145-156 with
core/node.rs:550-562), a publishing call returns (`ok`: the message entered the ring), someone calls
`notify_event`, a watcher goes once round its loop (`open_`: its gates pass; `cut`: `running` was
cleared after that many ticks of the burst, by a fatal failure or by anyone else). -/
inductive Act
  | start (node topic : String)
  | publish (topic : String) (api : Api) (ok : Bool)
  | notify (name : String)
  | poll (w : Nat) (open_ : Bool) (cut : Option Nat)

/-- One watcher pass (event_executor.rs:158-305): the gates, then one tick per missed generation. The
generation is marked as handled before the burst starts (181); the gates are not re-evaluated inside
the burst (184-302). -/
def pollWatcher (gen : Nat) (open_ : Bool) (cut : Option Nat) (w : Watcher) : Watcher :=
  if open_ then
    let missed := gen - w.seen
    if 0 < missed then
      { seen := gen, ticks := w.ticks + (match cut with | none => missed | some k => min k missed) }
    else w
  else w

/-- One step. -/
def step (s : Sys) : Act → Sys
  | .start node topic =>
    { s with
      reg := (s.reg.set node s.ws.length).set topic s.ws.length
      gen := fun i => if i = s.ws.length then 0 else s.gen i
      ws := s.ws ++ [{}] }
  | .publish topic api ok =>
    let s := { s with delivered := fun t => if t = topic ∧ ok = true then s.delivered t + 1 else s.delivered t }
    match api with
    | .send =>
      -- topic/mod.rs:2041-2081: counted first, notified last, whether or not the message was dropped
      ({ s with total := fun t => if t = topic then s.total t + 1 else s.total t } : Sys).notify topic
    | _ => s    -- topic/mod.rs:1733-1738, 2202-2256: neither counted nor notified
  | .notify name => s.notify name
  | .poll w open_ cut =>
    if s.running then
      match s.ws[w]? with
      | some x => { s with ws := s.ws.set w (pollWatcher (s.gen w) open_ cut x), running := cut.isNone }
      | none => s
    else s

/-- Any history. -/
def run (s : Sys) (as : List Act) : Sys := as.foldl step s

/-! ### stale subscriptions -/

/-- `StalePolicy` (types.rs:733-741). -/
inductive Policy
  | warn | safeState | stop
  deriving DecidableEq, Repr

/-- `SubscriptionFreshness` (types.rs:617-651). `prev = none` is the sentinel `u64::MAX`. -/
structure Fresh where
  timeout : Nat
  policy : Policy
  last : Nat
  prev : Option Nat := none
  deriving DecidableEq, Repr

/-- `refresh` (types.rs:672-729): `obs` is the topic's `messages_total`, `none` if it cannot be
mapped. -/
def Fresh.refresh (f : Fresh) (now : Nat) (obs : Option Nat) : Fresh :=
  match obs with
  | none => f
  | some t =>
    match f.prev with
    | none => { f with prev := some t }
    | some p => if t ≠ p then { f with prev := some t, last := max now (f.last + 1) } else { f with prev := some t }

/-- The staleness test after a refresh (scheduler/mod.rs:4591-4597). -/
def Fresh.stale (f : Fresh) (now : Nat) : Bool := decide (f.timeout < now - f.last)

/-- One check of one subscription. -/
def Fresh.check (f : Fresh) (now : Nat) (obs : Option Nat) : Fresh × Bool :=
  let g := f.refresh now obs
  (g, g.stale now)

/-- Repeated checks; returns the state and the verdict of the last check. -/
def Fresh.checks (f : Fresh) : List (Nat × Option Nat) → Fresh
  | [] => f
  | (now, obs) :: cs => (f.check now obs).1.checks cs

/-- The checks after one tick of a node with several subscriptions (scheduler/mod.rs:4584-4620): a
stale `Warn` subscription is logged, the first stale one with another policy decides and ends the
loop. Returns the subscriptions, the warnings and the action. -/
def checkAll (now : Nat) : List (Fresh × Option Nat) → List Fresh × Nat × Option Policy
  | [] => ([], 0, none)
  | (f, obs) :: fs =>
    let g := f.check now obs
    if g.2 then
      match f.policy with
      | .warn => let r := checkAll now fs; (g.1 :: r.1, r.2.1 + 1, r.2.2)
      | p => (g.1 :: fs.map (·.1), 0, some p)
    else let r := checkAll now fs; (g.1 :: r.1, r.2.1, r.2.2)

end Horus.Event
