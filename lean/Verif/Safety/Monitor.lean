import Verif.Ring.Common
import Mathlib.Tactic.Common
/-
Model of horus_core/src/scheduling/safety_monitor.rs (watchdogs, tick timing, degradation, critical
nodes) and of the two places that drive it on every tick: rt_executor.rs (nodes on real-time threads)
and scheduler/mod.rs (nodes on the main thread). Node names are numbers; durations are nanoseconds.
Counters of events (`u64`) are unbounded naturals. The emergency stop is the flag only; its latch and
announcement are modelled in Safety.Latch.
-/
namespace Horus.Safety.Monitor
open Horus.Ring (upd upd_same upd_ne)

local notation "U64" => (18446744073709551616 : Nat)

/-! ### Watchdogs -/

/-- `WatchdogSeverity` (safety_monitor.rs:171-181). -/
inductive Severity where
  | ok
  | warning
  | expired
  | critical
deriving DecidableEq

/-- `Watchdog` (safety_monitor.rs:196-206). -/
structure Watchdog where
  timeout : Nat
  baseTimeout : Nat
  lastHeartbeat : Nat
deriving DecidableEq

/-- `Watchdog::new` (safety_monitor.rs:209-216). -/
def Watchdog.new (timeout now : Nat) : Watchdog := ⟨timeout, timeout, now⟩

/-- `Watchdog::set_scale` (safety_monitor.rs:223-226). The floating-point product is the parameter
`scaled`, a function of the configured timeout and of the scale after the clamp to at least one. -/
def Watchdog.setScale {S : Type} (atLeastOne : S → S) (scaled : Nat → S → Nat) (w : Watchdog) (scale : S) : Watchdog :=
  { w with timeout := scaled w.baseTimeout (atLeastOne scale) }

/-- `Watchdog::feed` (safety_monitor.rs:229-232). -/
def Watchdog.feed (w : Watchdog) (now : Nat) : Watchdog := { w with lastHeartbeat := now }

/-- `Watchdog::check_graduated` (safety_monitor.rs:252-269): `saturating_sub`, and `u64` products that
wrap. -/
def Watchdog.check (w : Watchdog) (now : Nat) : Severity :=
  let elapsed := now - w.lastHeartbeat
  let timeout := w.timeout % U64
  if elapsed ≤ timeout then .ok
  else if elapsed ≤ timeout * 2 % U64 then .warning
  else if elapsed ≤ timeout * 3 % U64 then .expired
  else .critical

/-! ### Tick timing -/

/-- `TIMING_RING_CAPACITY` (safety_monitor.rs:280). -/
def ringCapacity : Nat := 1024

/-- `TickTimingRing` (safety_monitor.rs:283-287). -/
structure TickRing where
  durations : Nat → Nat
  writePos : Nat
  count : Nat

/-- `TickTimingRing::new` (safety_monitor.rs:290-296). -/
def TickRing.new : TickRing := ⟨fun _ => 0, 0, 0⟩

/-- `TickTimingRing::record` (safety_monitor.rs:299-303). -/
def TickRing.record (r : TickRing) (us : Nat) : TickRing :=
  ⟨upd r.durations r.writePos us, (r.writePos + 1) % ringCapacity, r.count + 1⟩

/-- `valid_count` (safety_monitor.rs:312-314). -/
def TickRing.validCount (r : TickRing) : Nat := min r.count ringCapacity

/-- The slice `durations[..n]` the statistics are taken over (safety_monitor.rs:318-323). -/
def TickRing.samples (r : TickRing) : List Nat := (List.range r.validCount).map r.durations

/-- `NodeTimingState` (safety_monitor.rs:358-373). -/
structure Timing where
  ring : TickRing
  budget : Option Nat
  overruns : Nat
  worstOverrun : Nat
  misses : Nat
  consecutive : Nat
  worstMiss : Nat

/-- `NodeTimingState::new` (safety_monitor.rs:376-386). -/
def Timing.new (budget : Option Nat) : Timing := ⟨TickRing.new, budget, 0, 0, 0, 0, 0⟩

/-- `NodeTimingState::record_tick` (safety_monitor.rs:389-419); the flag says the budget was
exceeded. -/
def Timing.recordTick (t : Timing) (actual : Nat) : Timing × Bool :=
  let us := actual / 1000
  let t := { t with ring := t.ring.record us }
  match t.budget with
  | some b =>
    if actual > b then
      ({ t with overruns := t.overruns + 1, worstOverrun := max t.worstOverrun (us - b / 1000) }, true)
    else ({ t with consecutive := 0 }, false)
  | none => ({ t with consecutive := 0 }, false)

/-- `NodeTimingState::record_miss` (safety_monitor.rs:422-428). -/
def Timing.recordMiss (t : Timing) (severity : Nat) : Timing :=
  { t with misses := t.misses + 1, consecutive := t.consecutive + 1, worstMiss := max t.worstMiss severity }

/-! ### Degradation -/

/-- `DegradationPolicy` (safety_monitor.rs:441-452). -/
structure Policy where
  warnAfter : Nat
  reduceAfter : Nat
  isolateAfter : Nat
  killAfter : Nat
  recoveryTicks : Nat
deriving DecidableEq

/-- `DegradationPolicy::default` (safety_monitor.rs:454-464). -/
def Policy.default : Policy := ⟨3, 5, 10, 20, 100⟩

/-- `DegradationStage` (safety_monitor.rs:468-479). -/
inductive Stage where
  | normal
  | warned
  | rateReduced
  | isolated
  | killed
deriving DecidableEq

/-- `NodeDegradationState` (safety_monitor.rs:483-490). -/
structure Degr (R : Type) where
  stage : Stage
  original : Option R
  recovery : Nat
deriving DecidableEq

/-- `NodeDegradationState::default` (safety_monitor.rs:492-500). -/
def Degr.new {R : Type} : Degr R := ⟨.normal, none, 0⟩

/-- `DegradationAction` (safety_monitor.rs:504-520), without the node's name. -/
inductive Action (R : Type) where
  | none
  | warn
  | reduceRate (rate : R)
  | isolate
  | kill
  | restoreRate (rate : R)
  | deisolate
deriving DecidableEq

/-- `evaluate_degradation` on the node's state (safety_monitor.rs:1003-1046). Rates are any type `R`
with a halving and the value 100 Hz. -/
def Degr.evaluate {R : Type} (half : R → R) (hundred : R) (p : Policy) (d : Degr R) (consecutive : Nat)
    (rate : Option R) : Degr R × Action R :=
  if consecutive ≥ p.killAfter ∧ d.stage ≠ .killed then ({ d with stage := .killed, recovery := 0 }, .kill)
  else if consecutive ≥ p.isolateAfter ∧ d.stage ≠ .isolated ∧ d.stage ≠ .killed then
    ({ d with stage := .isolated, recovery := 0 }, .isolate)
  else if consecutive ≥ p.reduceAfter ∧ d.stage ≠ .rateReduced ∧ d.stage ≠ .isolated ∧ d.stage ≠ .killed then
    ({ stage := .rateReduced, recovery := 0, original := d.original.orElse fun _ => rate },
      .reduceRate (half (rate.getD hundred)))
  else if consecutive ≥ p.warnAfter ∧ d.stage = .normal then ({ d with stage := .warned }, .warn)
  else (d, .none)

/-- `record_successful_tick` on the node's state (safety_monitor.rs:1053-1109). -/
def Degr.success {R : Type} (p : Policy) (d : Degr R) : Degr R × Action R :=
  match d.stage with
  | .rateReduced =>
    if d.recovery + 1 ≥ p.recoveryTicks then
      (⟨.normal, Option.none, 0⟩, match d.original with | some r => .restoreRate r | Option.none => .none)
    else ({ d with recovery := d.recovery + 1 }, .none)
  | .warned => ({ d with stage := .normal, recovery := 0 }, .none)
  | .isolated =>
    if d.recovery + 1 ≥ p.recoveryTicks then ({ d with stage := .rateReduced, recovery := 0 }, .deisolate)
    else ({ d with recovery := d.recovery + 1 }, .none)
  | .normal | .killed => (d, .none)

/-! ### The monitor -/

/-- `SafetyMonitor` (safety_monitor.rs:620-647). Hash maps are functions; the watchdog map is a list of
its entries because it is iterated. -/
structure Mon (R : Type) where
  stop : Bool
  watchdogs : List (Nat × Watchdog)
  timing : Nat → Option Timing
  critical : List Nat
  misses : Nat
  maxMisses : Nat
  policy : Policy
  degr : Nat → Option (Degr R)
  overruns : Nat

/-- `SafetyMonitor::new` (safety_monitor.rs:706-719). -/
def Mon.new {R : Type} (maxMisses : Nat) : Mon R :=
  ⟨false, [], fun _ => none, [], 0, maxMisses, Policy.default, fun _ => none, 0⟩

/-- Insert or replace in the watchdog map. Ghost or helper of the model of scheduling/safety_monitor.rs. -/
def putDog (l : List (Nat × Watchdog)) (n : Nat) (w : Watchdog) : List (Nat × Watchdog) :=
  (n, w) :: l.filter (·.1 ≠ n)

/-- `add_critical_node` (safety_monitor.rs:742-747). -/
def Mon.addCritical {R : Type} (m : Mon R) (n timeout now : Nat) : Mon R :=
  { m with critical := m.critical ++ [n], watchdogs := putDog m.watchdogs n (Watchdog.new timeout now) }

/-- `set_budget` (safety_monitor.rs:549-554, 759-761). -/
def Mon.setBudget {R : Type} (m : Mon R) (n b : Nat) : Mon R :=
  { m with timing := upd m.timing n (some { (m.timing n).getD (Timing.new (some b)) with budget := some b }) }

/-- `feed_watchdog` and `WatchdogFeeder::feed` (safety_monitor.rs:669-673, 767-771). -/
def Mon.feed {R : Type} (m : Mon R) (n now : Nat) : Mon R :=
  { m with watchdogs := m.watchdogs.map fun e => if e.1 = n then (e.1, e.2.feed now) else e }

/-- `check_watchdogs_graduated` (safety_monitor.rs:902-927): the nodes that are not `Ok`, and the
emergency stop if a critical node is at `Critical`. -/
def Mon.checkWatchdogs {R : Type} (m : Mon R) (now : Nat) : Mon R × List (Nat × Severity) :=
  let results := (m.watchdogs.map fun e => (e.1, e.2.check now)).filter (·.2 ≠ .ok)
  ({ m with stop := m.stop || results.any fun e => e.2 = .critical ∧ e.1 ∈ m.critical }, results)

/-- `check_tick_budget` (safety_monitor.rs:560-577, 930-957); the flag says `Err`. -/
def Mon.checkBudget {R : Type} (m : Mon R) (n actual : Nat) : Mon R × Bool :=
  let r := ((m.timing n).getD (Timing.new none)).recordTick actual
  ({ m with timing := upd m.timing n (some r.1)
            overruns := if r.2 then m.overruns + 1 else m.overruns
            stop := m.stop || (r.2 && decide (n ∈ m.critical)) }, r.2)

/-- `record_deadline_miss_with_severity` (safety_monitor.rs:580-586, 968-982). -/
def Mon.recordMiss {R : Type} (m : Mon R) (n severity : Nat) : Mon R :=
  { m with misses := m.misses + 1
           timing := upd m.timing n (some (((m.timing n).getD (Timing.new none)).recordMiss severity))
           stop := m.stop || decide (n ∈ m.critical) || decide (m.misses + 1 ≥ m.maxMisses) }

/-- `consecutive_misses` (safety_monitor.rs:990-997). -/
def Mon.consecutive {R : Type} (m : Mon R) (n : Nat) : Nat := ((m.timing n).map (·.consecutive)).getD 0

/-- `evaluate_degradation` (safety_monitor.rs:1003-1046). -/
def Mon.evaluate {R : Type} (half : R → R) (hundred : R) (m : Mon R) (n consecutive : Nat) (rate : Option R) :
    Mon R × Action R :=
  let r := ((m.degr n).getD Degr.new).evaluate half hundred m.policy consecutive rate
  ({ m with degr := upd m.degr n (some r.1) }, r.2)

/-- `record_successful_tick` (safety_monitor.rs:1053-1109). -/
def Mon.success {R : Type} (m : Mon R) (n : Nat) : Mon R × Action R :=
  match m.degr n with
  | none => (m, .none)
  | some d =>
    let r := d.success m.policy
    ({ m with degr := upd m.degr n (some r.1) }, r.2)

/-! ### What a tick does to its node -/

/-- `NodeHealthState` (types.rs). -/
inductive Health where
  | healthy
  | warning
  | unhealthy
  | isolated
deriving DecidableEq

/-- The parts of a registered node the ladder touches (types.rs `RegisteredNode`). -/
structure Node (R : Type) where
  budget : Option Nat
  deadline : Option Nat
  rate : Option R
  health : Health
  stopped : Bool

/-- A completed tick: its duration, the time since its start when the deadline is checked, and whether
it returned without panicking. Source: scheduling/safety_monitor.rs. -/
structure Tick where
  duration : Nat
  elapsed : Nat
  ok : Bool
deriving DecidableEq

/-- `apply_degradation_action` (primitives.rs:82-192, scheduler/mod.rs:4842-4925). The node's safing
callbacks are assumed not to panic (a panicking one stops the node); watchdog scaling and the
last-tick stamp are left out. -/
def Node.apply {R : Type} (nd : Node R) : Action R → Node R
  | .none | .warn => nd
  | .reduceRate r => { nd with rate := some r }
  | .isolate => { nd with health := .isolated }
  | .kill => { nd with health := .isolated, stopped := true }
  | .restoreRate r => { nd with rate := some r, health := .healthy }
  | .deisolate => { nd with health := .warning }

/-- The deadline part of a tick (rt_executor.rs:369-435, scheduler/mod.rs:4738-4785). -/
def deadlinePart {R : Type} (half : R → R) (hundred : R) (n : Nat) (t : Tick) (m : Mon R) (nd : Node R) :
    Mon R × Node R × List (Action R) :=
  match nd.deadline with
  | some dl =>
    if t.elapsed > dl then
      let m := m.recordMiss n 0
      let r := m.evaluate half hundred n (m.consecutive n) nd.rate
      (r.1, nd.apply r.2, [r.2])
    else (m, nd, [])
  | none => (m, nd, [])

/-- The end of a clean tick (rt_executor.rs:520-523, scheduler/mod.rs:4569-4573). -/
def successPart {R : Type} (n : Nat) (t : Tick) (m : Mon R) (nd : Node R) : Mon R × Node R × List (Action R) :=
  if t.ok then
    let r := m.success n
    (r.1, nd.apply r.2, [r.2])
  else (m, nd, [])

/-- The budget part of a tick on a real-time thread (rt_executor.rs:290-297): the monitor's check runs
on every tick if the node has a budget. -/
def rtBudget {R : Type} (n : Nat) (t : Tick) (m : Mon R) (nd : Node R) : Mon R :=
  match nd.budget with
  | some _ => (m.checkBudget n t.duration).1
  | none => m

/-- The budget part of a tick on the main thread (scheduler/mod.rs:4662-4694): the monitor's check runs
only if the node's own budget was exceeded. -/
def mainBudget {R : Type} (n : Nat) (t : Tick) (m : Mon R) (nd : Node R) : Mon R :=
  match nd.budget with
  | some b => if t.duration > b then (m.checkBudget n t.duration).1 else m
  | none => m

/-- A tick: budget, deadline, end of tick (rt_executor.rs:290-523, scheduler/mod.rs:4651-4790 and
4569-4573). The node's own budget and deadline policies (`Warn` here) and the failure policy are left
out or modelled elsewhere. -/
def tickWith {R : Type} (budgetPart : Nat → Tick → Mon R → Node R → Mon R) (half : R → R) (hundred : R) (n : Nat)
    (s : Mon R × Node R) (t : Tick) : (Mon R × Node R) × List (Action R) :=
  let m := budgetPart n t s.1 s.2
  let a := deadlinePart half hundred n t m s.2
  let b := successPart n t a.1 a.2.1
  ((b.1, b.2.1), a.2.2 ++ b.2.2)

/-- Ticks of one node, with every action taken; a stopped node is not ticked (rt_executor.rs:766,
scheduler/mod.rs:4166). -/
def ticks {R : Type} (budgetPart : Nat → Tick → Mon R → Node R → Mon R) (half : R → R) (hundred : R) (n : Nat)
    (s : Mon R × Node R) : List Tick → (Mon R × Node R) × List (Action R)
  | [] => (s, [])
  | t :: ts =>
    if s.2.stopped then ticks budgetPart half hundred n s ts
    else
      let r := tickWith budgetPart half hundred n s t
      let r' := ticks budgetPart half hundred n r.1 ts
      (r'.1, r.2 ++ r'.2)

/-- May the real-time loop run the node (rt_executor.rs:762-818, leaving out the operator's controls,
the one-tick skip and the rate)? -/
def rtMayTick {R : Type} (nd : Node R) : Bool := !nd.stopped

/-- May the main loop run the node (scheduler/mod.rs:4165-4212), given its probe counter? A node that
is unhealthy or isolated runs once in a hundred cycles. -/
def mainMayTick {R : Type} (nd : Node R) (probe : Nat) : Bool × Nat :=
  if nd.stopped then (false, probe)
  else if nd.health = .unhealthy ∨ nd.health = .isolated then
    let p := (probe + 1) % U64
    (decide (p % 100 = 0), p)
  else (true, probe)

end Horus.Safety.Monitor
