import Mathlib.Tactic.Common
/-
Model of horus_core/src/scheduling/fault_tolerance/failure_policy.rs and of its use in types.rs.
Times are nanoseconds on the monotonic clock. `u32` counters wrap (release build).
`Instant + Duration` panics past the clock's range (2^63 seconds on Linux); `Duration` saturates at
2^64 seconds.
-/
namespace Horus.Sched.Failure

/-- `u32::MAX + 1`. -/
local notation "U32" => (4294967296 : Nat)

/-- `Duration::MAX` in nanoseconds (core::time: `u64::MAX` seconds and 999 999 999 ns). -/
def durMax : Nat := 18446744073709551616 * 1000000000 - 1

/-- First instant that cannot be represented (`i64` seconds on Linux). -/
def instLimit : Nat := 9223372036854775808 * 1000000000

/-- failure_policy.rs:29-58 -/
inductive Policy where
  | fatal
  | restart (maxRestarts initialBackoff : Nat)
  | skip (maxFailures cooldown : Nat)
  | ignore
deriving DecidableEq

/-- failure_policy.rs:90-112 `FailureHandlerState`, with the policy (failure_policy.rs:83-88). The
state carries copies of the policy's numbers; they never change, so the policy is kept once. -/
structure Handler where
  policy : Policy
  /-- `restart_count` or `failure_count` -/
  count : Nat
  /-- `backoff_until` or `suppressed_until` -/
  until_ : Option Nat
deriving DecidableEq

/-- failure_policy.rs:122-134 -/
inductive Action where
  | stopScheduler
  | restartNode
  | skipNode
  | continue_
  | fatalAfterRestarts
deriving DecidableEq

/-- `FailureHandler::new` (failure_policy.rs:188-212); `reset` (416-439) rebuilds the same state. -/
def Handler.new (p : Policy) : Handler := ⟨p, 0, none⟩

/-- `reset` (failure_policy.rs:416-439). -/
def Handler.reset (h : Handler) : Handler := Handler.new h.policy

/-- `should_allow` at time `now` (failure_policy.rs:217-232). -/
def Handler.shouldAllow (h : Handler) (now : Nat) : Bool :=
  match h.policy with
  | .fatal | .ignore => true
  | .restart _ _ | .skip _ _ =>
    match h.until_ with
    | some u => decide (u ≤ now)
    | none => true

/-- `record_success` (failure_policy.rs:235-259). -/
def Handler.recordSuccess (h : Handler) : Handler :=
  match h.policy with
  | .fatal | .ignore => h
  | .restart _ _ => { h with until_ := none }
  | .skip _ _ => { h with count := 0, until_ := none }

/-- `2u32.saturating_pow(e)` -/
def satPow (e : Nat) : Nat := min (2 ^ e) (U32 - 1)

/-- `initial.saturating_mul(2u32.saturating_pow(n - 1))` (failure_policy.rs:290-291). -/
def backoff (initial n : Nat) : Nat := min (initial * satPow (n - 1)) durMax

/-- `Instant::now() + d`: panics (none) when out of range.
Library function or literal as used by fault_tolerance/failure_policy.rs. -/
def addInstant (now d : Nat) : Option Nat := if now + d < instLimit then some (now + d) else none

/-- `record_failure` at time `now` (failure_policy.rs:276-312); `none` is a panic. -/
def Handler.recordFailure (h : Handler) (now : Nat) : Option (Handler × Action) :=
  match h.policy with
  | .fatal => some (h, .stopScheduler)
  | .restart maxRestarts initial =>
    let n := (h.count + 1) % U32
    if n > maxRestarts then some ({ h with count := n }, .fatalAfterRestarts)
    else
      match addInstant now (backoff initial n) with
      | none => none
      | some u => some ({ h with count := n, until_ := some u }, .restartNode)
  | .skip maxFailures cooldown =>
    let n := (h.count + 1) % U32
    if n ≥ maxFailures then
      match addInstant now cooldown with
      | none => none
      | some u => some ({ h with count := 0, until_ := some u }, .skipNode)
    else some ({ h with count := n }, .continue_)
  | .ignore => some (h, .continue_)

/-- error.rs `Severity`. -/
inductive Severity where
  | transient
  | permanent
  | fatal
deriving DecidableEq

/-- `record_failure_with_severity` (failure_policy.rs:344-358). -/
def Handler.recordFailureSev (h : Handler) (now : Nat) (s : Severity) : Option (Handler × Action) :=
  match s with
  | .fatal => some (h, .stopScheduler)
  | .transient =>
    match h.policy with
    | .fatal => some (h, .restartNode)
    | _ => h.recordFailure now
  | .permanent => h.recordFailure now

/-- What the scheduler does to the node on a panic (types.rs:589-611): calls `enter_safe_state` and
stops, calls `init`, or nothing. -/
inductive Effect where
  | safeAndStop
  | reinit
  | nothing
deriving DecidableEq

/-- The dispatch on the action (types.rs:594-610). -/
def effectOf : Action → Effect
  | .stopScheduler | .fatalAfterRestarts => .safeAndStop
  | .restartNode => .reinit
  | .skipNode | .continue_ => .nothing

/-- `apply_failure_policy_after_panic` (types.rs:589-611): without a policy nothing happens. -/
def applyAfterPanic (h : Option Handler) (now : Nat) : Option (Option Handler × Effect) :=
  match h with
  | none => some (none, .nothing)
  | some h =>
    match h.recordFailure now with
    | none => none
    | some (h', a) => some (some h', effectOf a)

/-- What happens to a node over time: a clean tick, or a panicking tick, at a time.
Schedules over the functions of fault_tolerance/failure_policy.rs. -/
inductive Event where
  | ok (t : Nat)
  | fail (t : Nat)
deriving DecidableEq

/-- Feed one event; the action of a failure is recorded. `none` is a panic of the scheduler itself.
Schedules over the functions of fault_tolerance/failure_policy.rs. -/
def Handler.event (h : Handler) : Event → Option (Handler × Option Action)
  | .ok _ => some (h.recordSuccess, none)
  | .fail t => (h.recordFailure t).map fun r => (r.1, some r.2)

/-- A whole history: the final handler and the actions of the failures in order.
Schedules over the functions of fault_tolerance/failure_policy.rs. -/
def Handler.history (h : Handler) : List Event → Option (Handler × List Action)
  | [] => some (h, [])
  | e :: es =>
    match h.event e with
    | none => none
    | some (h', a) =>
      match h'.history es with
      | none => none
      | some (h'', as) => some (h'', a.toList ++ as)

end Horus.Sched.Failure
