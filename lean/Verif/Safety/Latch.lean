import Verif.Ring.Common
import Mathlib.Tactic.Common
/-
Model of the emergency-stop latch, horus_core/src/scheduling/safety_monitor.rs:13-111, 687-703 and
1135-1197, with every access to shared memory a separate step. A process may hold several monitors
(one per scheduler run); the hooks and the pending slot are process-global.
-/
namespace Horus.Safety.Latch
open Horus.Ring (upd upd_same upd_ne)

/-- `SafetyState` (safety_monitor.rs:127-139). -/
inductive State where
  | normal
  | safeState
  | emergencyStop
deriving DecidableEq

/-- Program counter of a thread. The reason text is carried as a number.
Source: scheduling/safety_monitor.rs:13-111, 687-703, 1135-1197. -/
inductive Pc where
  | idle
  /-- after the swap (1146 / 693), before the state store -/
  | trigState (mon : Nat) (rising : Bool) (reason : Nat)
  /-- after the state store, before queueing (1148-1151 / 695-698) -/
  | trigPend (mon : Nat) (reason : Nat)
  /-- inside the external hook: after the flag store (1192), before the state store -/
  | extState (mon : Nat)
deriving DecidableEq

/-- Shared memory and threads. Source: scheduling/safety_monitor.rs:13-111, 687-703, 1135-1197. -/
structure St where
  /-- `emergency_stop` of each monitor -/
  flag : Nat → Bool
  /-- `state` of each monitor -/
  state : Nat → State
  /-- `PENDING_LOCAL_ESTOP` (100), with the monitor that queued it -/
  pending : Option (Nat × Nat)
  /-- `EMERGENCY_STOP_HOOK` (19): the monitor it is wired to -/
  hook : Option Nat
  /-- `SAFE_STATE_HOOK` (59) -/
  safeHook : Option Nat
  thr : Nat → Pc
  /-- every `Some` returned by `take_pending_local_estop`, oldest first -/
  taken : List (Nat × Nat)
  /-- history (ghost): every store to the pending slot, oldest first -/
  queued : List (Nat × Nat)
  /-- history (ghost): monitors whose flag was raised by a local trigger -/
  localRise : List Nat

/-- A fresh process (safety_monitor.rs:19, 59, 100, 706-719). -/
def init : St := ⟨fun _ => false, fun _ => .normal, none, none, none, fun _ => .idle, [], [], []⟩

/-- What a thread may do next. Schedules over the functions of scheduling/safety_monitor.rs:13-111, 687-703, 1135-1197. -/
inductive Act where
  /-- `trigger_emergency_stop` / `EstopTrigger::trigger` on a monitor: the swap -/
  | trigger (t mon reason : Nat)
  /-- `trigger_external_emergency_stop`: find the hook and store the flag -/
  | extern (t : Nat)
  /-- `trigger_external_safe_state` -/
  | safe (t : Nat)
  /-- `install_emergency_stop_hook` -/
  | installStop (mon : Nat)
  /-- `install_safe_state_hook` -/
  | installSafe (mon : Nat)
  /-- `take_pending_local_estop` -/
  | take
  /-- the thread's next step -/
  | next (t : Nat)
deriving DecidableEq

/-- `swap(true)` (1146, 693). -/
def trigger (s : St) (t mon reason : Nat) : St :=
  { s with flag := upd s.flag mon true
           thr := upd s.thr t (.trigState mon (!s.flag mon) reason)
           localRise := if s.flag mon then s.localRise else s.localRise ++ [mon] }

/-- `trigger_external_emergency_stop` up to the flag store (35-45, 1192). -/
def extern (s : St) (t : Nat) : St :=
  match s.hook with
  | none => s
  | some mon => { s with flag := upd s.flag mon true, thr := upd s.thr t (.extState mon) }

/-- `trigger_external_safe_state` (73-85, 1178-1179). -/
def safe (s : St) (t : Nat) : St :=
  match s.safeHook with
  | some mon => { s with state := upd s.state mon .safeState }
  | none => extern s t

/-- `take_pending_local_estop` (106-111). -/
def take (s : St) : St :=
  match s.pending with
  | none => s
  | some p => { s with pending := none, taken := s.taken ++ [p] }

/-- The rest of a started call. Source: scheduling/safety_monitor.rs:13-111, 687-703, 1135-1197. -/
def next (s : St) (t : Nat) : St :=
  match s.thr t with
  | .idle => s
  | .trigState mon rising reason =>
    { s with state := upd s.state mon .emergencyStop
             thr := upd s.thr t (if rising then .trigPend mon reason else .idle) }
  | .trigPend mon reason =>
    { s with pending := some (mon, reason), queued := s.queued ++ [(mon, reason)], thr := upd s.thr t .idle }
  | .extState mon => { s with state := upd s.state mon .emergencyStop, thr := upd s.thr t .idle }

/-- One step; a thread inside a call starts no other.
Schedules over the functions of scheduling/safety_monitor.rs:13-111, 687-703, 1135-1197. -/
def step (s : St) : Act → St
  | .trigger t mon reason => if s.thr t = .idle then trigger s t mon reason else s
  | .extern t => if s.thr t = .idle then extern s t else s
  | .safe t => if s.thr t = .idle then safe s t else s
  | .installStop mon => { s with hook := some mon }
  | .installSafe mon => { s with safeHook := some mon }
  | .take => take s
  | .next t => next s t

/-- Any schedule. Schedules over the functions of scheduling/safety_monitor.rs:13-111, 687-703, 1135-1197. -/
def run (s : St) : List Act → St
  | [] => s
  | a :: as => run (step s a) as

end Horus.Safety.Latch
