import Verif.Common.Locks

/-!
The locks of the safety monitor and of the process-wide stop hooks (horus_core/src/scheduling/safety_monitor.rs):
whether the threads of a scheduler and of the network can hang each other on the way to an emergency stop. Every
method is the list of lock operations it performs, in order, with the hooks inlined; what depends on data (is the
node critical, is this the first trigger, …) is a parameter.

Simplifications: the locks of the scheduler itself and of standard error are left out.
-/

namespace Horus.SafetyLocks
open Horus.Locks

/-! ### Model -/

/-- The locks (safety_monitor.rs:19, 59, 100, 622-646). -/
inductive Lock
  | stopHook | safeHook | pending | state | watchdogs | budget | critical | degradation
  deriving DecidableEq, Repr

/-- Latching the stop (safety_monitor.rs:691-704, 1135-1156); `first`: it was not latched before. -/
def trigger (first : Bool) : List (Op Lock) := hold .state .w [] ++ (if first then hold .pending .w [] else [])

/-- Latching the stop if some condition holds. -/
def triggerIf : Option Bool → List (Op Lock)
  | none => []
  | some first => trigger first

/-- The methods that run no hook. -/
inductive Basic
  /-- `take_pending_local_estop` (safety_monitor.rs:106-111) -/
  | takePending
  /-- `EstopTrigger::trigger`, `trigger_emergency_stop` -/
  | trigger (first : Bool)
  /-- `WatchdogFeeder::feed`, `feed_watchdog`, `watchdog_timeout` (safety_monitor.rs:669-673, 767-777) -/
  | feed
  /-- `scale_watchdog` (safety_monitor.rs:793-797) -/
  | scale
  /-- `add_critical_node` (safety_monitor.rs:742-751) -/
  | addCritical
  /-- `critical_node_count`, `is_critical_node` (safety_monitor.rs:735-737, 754-756) -/
  | isCritical
  /-- `set_tick_budget`, `all_node_timing`, `consecutive_misses` (safety_monitor.rs:759-761, 985-997) -/
  | budgets
  /-- `check_watchdogs_graduated` (safety_monitor.rs:902-928): some node is at three times its time-out; a critical one is -/
  | checkWatchdogs (late : Bool) (stop : Option Bool)
  /-- `check_tick_budget` (safety_monitor.rs:930-957): the budget is exceeded; the node is critical -/
  | checkBudget (over : Bool) (stop : Option Bool)
  /-- `record_deadline_miss_with_severity` (safety_monitor.rs:968-982) -/
  | recordMiss (stop : Option Bool)
  /-- `evaluate_degradation`, `record_successful_tick` (safety_monitor.rs:1003-1110) -/
  | degrade
  /-- `get_state` (safety_monitor.rs:1200-1202) -/
  | getState
  /-- `get_stats` (safety_monitor.rs:1205-1219): the guard of the budgets lives to the end of the expression -/
  | getStats
  deriving DecidableEq, Repr

/-- What a method that runs no hook does. -/
def Basic.ops : Basic → List (Op Lock)
  | .takePending => hold .pending .w []
  | .trigger first => SafetyLocks.trigger first
  | .feed => hold .watchdogs .r []
  | .scale => hold .watchdogs .w []
  | .addCritical => hold .critical .w [] ++ hold .watchdogs .w []
  | .isCritical => hold .critical .r []
  | .budgets => hold .budget .w []
  | .checkWatchdogs late stop => hold .watchdogs .r [] ++ (if late then hold .critical .r [] ++ triggerIf stop else [])
  | .checkBudget over stop =>
    hold .budget .w [] ++ (if over then hold .critical .r [] ++ (if stop.isSome then hold .budget .w [] else []) ++ triggerIf stop else [])
  | .recordMiss stop => hold .budget .w [] ++ hold .critical .r [] ++ triggerIf stop
  | .degrade => hold .degradation .w []
  | .getState => hold .state .w []
  | .getStats => hold .state .w [] ++ hold .budget .w (hold .watchdogs .r [])

/-- Calls made one after another. -/
def many (bs : List Basic) : List (Op Lock) := bs.flatMap Basic.ops

/-- `trigger_external_emergency_stop` (safety_monitor.rs:35-45) with what the hook does, if one is installed. -/
def externalStop (hook : List (Op Lock)) : List (Op Lock) := hold .stopHook .r hook

/-- The hook a monitor installs (safety_monitor.rs:1188-1197). -/
def monitorStop : List (Op Lock) := hold .state .w []

/-- The safe-state hook a monitor installs (safety_monitor.rs:1176-1186). -/
def monitorSafe : List (Op Lock) := hold .state .w []

/-- The methods. -/
inductive Call
  | basic (b : Basic)
  | externalStop (hook : List (Op Lock))
  /-- `trigger_external_safe_state` (safety_monitor.rs:73-87) with a hook -/
  | externalSafe (hook : List (Op Lock))
  /-- the same without a hook: the emergency stop instead, after the lock is released -/
  | escalate (stop : List (Op Lock))
  /-- `set_emergency_stop_hook`, `install_emergency_stop_hook` -/
  | setStop
  /-- `set_safe_state_hook`, `install_safe_state_hook` -/
  | setSafe

/-- What a method does. -/
def Call.ops : Call → List (Op Lock)
  | .basic b => b.ops
  | .externalStop hook => SafetyLocks.externalStop hook
  | .externalSafe hook => hold .safeHook .r hook
  | .escalate stop => hold .safeHook .r [] ++ SafetyLocks.externalStop stop
  | .setStop => hold .stopHook .w []
  | .setSafe => hold .safeHook .w []

/-- The threads before they start: each makes some calls, one after another. -/
def start (calls : Nat → List Call) : St Lock := begin fun t => (calls t).flatMap Call.ops

/-! ### What hooks may do -/

/-- The hook for emergency stops: anything that touches no hook. -/
def StopHook (p : List (Op Lock)) : Prop := ∃ bs : List Basic, p = many bs

/-- The safe-state hook: that, and ask for an emergency stop. -/
def SafeHook (p : List (Op Lock)) : Prop := ∃ bs : List (Basic ⊕ { q : List (Op Lock) // StopHook q }),
  p = bs.flatMap fun x => match x with
    | .inl b => b.ops
    | .inr q => externalStop q.1

/-- The hooks a call runs keep to that. -/
def Call.Good : Call → Prop
  | .basic _ => True
  | .externalStop hook => StopHook hook
  | .externalSafe hook => SafeHook hook
  | .escalate stop => StopHook stop
  | .setStop => True
  | .setSafe => True

/-! ### The order -/

def rank : Lock → Nat
  | .safeHook => 0
  | .stopHook => 1
  | .budget => 2
  | .watchdogs => 3
  | .critical => 3
  | .degradation => 3
  | .state => 3
  | .pending => 3

theorem rank_le (l : Lock) : rank l ≤ 3 := by cases l <;> simp [rank]

theorem bal_one {n : Nat} {h : List Lock} {l : Lock} {m : Mode} (hb : Below rank n h) (hn : n ≤ rank l) : Bal rank h (hold l m []) :=
  bal_lock hb hn fun _ => bal_nil _

theorem bal_trigger {h : List Lock} (hb : Below rank 2 h) (first : Bool) : Bal rank h (trigger first) :=
  bal_append (bal_one hb (by simp [rank])) (bal_ite (bal_one hb (by simp [rank])) (bal_nil _))

theorem bal_triggerIf {h : List Lock} (hb : Below rank 2 h) (stop : Option Bool) : Bal rank h (triggerIf stop) := by
  cases stop with
  | none => exact bal_nil _
  | some f => exact bal_trigger hb f

theorem bal_basic {h : List Lock} (hb : Below rank 2 h) (b : Basic) : Bal rank h b.ops := by
  have one : ∀ l m, 2 ≤ rank l → Bal rank h (hold l m []) := fun l m hl => bal_one hb hl
  cases b with
  | takePending => exact one _ _ (by simp [rank])
  | trigger first => exact bal_trigger hb first
  | feed => exact one _ _ (by simp [rank])
  | scale => exact one _ _ (by simp [rank])
  | addCritical => exact bal_append (one _ _ (by simp [rank])) (one _ _ (by simp [rank]))
  | isCritical => exact one _ _ (by simp [rank])
  | budgets => exact one _ _ (by simp [rank])
  | checkWatchdogs late stop =>
    exact bal_append (one _ _ (by simp [rank])) (bal_ite (bal_append (one _ _ (by simp [rank])) (bal_triggerIf hb stop)) (bal_nil _))
  | checkBudget over stop =>
    exact bal_append (one _ _ (by simp [rank])) (bal_ite (bal_append (bal_append (one _ _ (by simp [rank]))
      (bal_ite (one _ _ (by simp [rank])) (bal_nil _))) (bal_triggerIf hb stop)) (bal_nil _))
  | recordMiss stop => exact bal_append (bal_append (one _ _ (by simp [rank])) (one _ _ (by simp [rank]))) (bal_triggerIf hb stop)
  | degrade => exact one _ _ (by simp [rank])
  | getState => exact one _ _ (by simp [rank])
  | getStats =>
    exact bal_append (one _ _ (by simp [rank])) (bal_lock hb (by simp [rank]) fun hc => bal_one hc (by simp [rank]))

theorem bal_stopHook {h : List Lock} (hb : Below rank 2 h) {p : List (Op Lock)} (hp : StopHook p) : Bal rank h p := by
  obtain ⟨bs, rfl⟩ := hp
  exact bal_flatMap fun b _ => bal_basic hb b

theorem bal_externalStop {h : List Lock} (hb : Below rank 1 h) {p : List (Op Lock)} (hp : StopHook p) : Bal rank h (externalStop p) :=
  bal_lock hb (by simp [rank]) fun hc => bal_stopHook hc hp

theorem bal_safeHook {h : List Lock} (hb : Below rank 1 h) {p : List (Op Lock)} (hp : SafeHook p) : Bal rank h p := by
  obtain ⟨bs, rfl⟩ := hp
  refine bal_flatMap fun x _ => ?_
  match x with
  | .inl b => exact bal_basic (fun y hy => Nat.lt_trans (hb y hy) (by omega)) b
  | .inr q => exact bal_externalStop hb q.2

theorem bal_call {c : Call} (hc : c.Good) : Bal rank [] c.ops := by
  cases c with
  | basic b => exact bal_basic (below_nil 2) b
  | externalStop hook => exact bal_externalStop (below_nil 1) hc
  | externalSafe hook => exact bal_lock (below_nil 0) (Nat.zero_le _) fun hd => bal_safeHook hd hc
  | escalate stop => exact bal_append (bal_one (below_nil 0) (Nat.zero_le _)) (bal_externalStop (below_nil 1) hc)
  | setStop => exact bal_one (below_nil 0) (Nat.zero_le _)
  | setSafe => exact bal_one (below_nil 0) (Nat.zero_le _)

theorem calls_ok {calls : Nat → List Call} (hc : ∀ t, ∀ c ∈ calls t, c.Good) (t : Nat) : ok rank [] ((calls t).flatMap Call.ops) := by
  simpa using bal_flatMap (rank := rank) (h := []) (f := Call.ops) (l := calls t) (fun c hx => bal_call (hc t c hx)) [] rfl

/-- However many threads use the monitor and the hooks, whatever they call and however they are scheduled: a
thread that is not done can go on, or another can. -/
theorem some_thread_goes_on {calls : Nat → List Call} (hc : ∀ t, ∀ c ∈ calls t, c.Good) {s : St Lock} (hr : Reach (start calls) s)
    {t : Nat} (ht : (s t).todo ≠ []) : ∃ u, canGo s u := progress rank_le (calls_ok hc) hr ht

/-- With finitely many threads every schedule comes to an end, and then every call has returned, every emergency
stop among them, and every lock is released. -/
theorem every_call_returns {calls : Nat → List Call} {n : Nat} (hc : ∀ t, ∀ c ∈ calls t, c.Good) (hn : ∀ t, n ≤ t → calls t = [])
    {k : Nat} {s : St Lock} (hr : Steps (start calls) k s) :
    k + left s n = left (start calls) n ∧ ((∀ t, ¬ canGo s t) → ∀ t, (s t).todo = [] ∧ (s t).held = []) :=
  all_finish rank_le (calls_ok hc) (fun t ht => by simp [hn t ht]) hr

/-- The hooks the monitor installs are among those allowed. -/
theorem monitor_hooks_allowed : StopHook monitorStop ∧ SafeHook monitorSafe :=
  ⟨⟨[.getState], by decide +kernel⟩, ⟨[.inl .getState], by decide +kernel⟩⟩

/-- An emergency stop raised inside the process waits, at worst, for threads that hold one lock and want no other:
it takes its locks one at a time, while it holds nothing. -/
theorem stop_holds_one_lock (first : Bool) : ∃ ls : List Lock, trigger first = ls.flatMap fun l => hold l .w [] := by
  cases first
  · exact ⟨[.state], rfl⟩
  · exact ⟨[.state, .pending], rfl⟩

/-! ### Hooks that hang -/

theorem start_list (calls : List (List Call)) :
    (start fun t => calls.getD t []) = begin fun t => (calls.map fun cs => cs.flatMap Call.ops).getD t [] := by
  funext t
  by_cases h : t < calls.length <;> simp [start, begin, h]

/-- A hook that replaces itself hangs its own thread. -/
theorem hook_replaces_itself_hangs : ∃ s, Reach (start fun t => [[Call.externalStop Call.setStop.ops]].getD t []) s ∧ Dead s := by
  rw [start_list]
  exact dead_of' [0] (by decide +kernel)

/-- A stop hook that asks for the safe state, a safe-state hook that asks for a stop and two threads that install
hooks hang each other. -/
theorem hooks_in_circle_hang :
    ∃ s, Reach (start fun t => [[Call.externalStop (hold .safeHook .r [])], [Call.externalSafe (externalStop [])], [Call.setStop], [Call.setSafe]].getD t []) s ∧ Hung s := by
  rw [start_list]
  exact hung_of' [0, 1] (by decide +kernel)

/-- Threads of a scheduler and of the network at work. -/
example : ∀ t, ∀ c ∈ [[Call.basic (.checkBudget true (some true)), Call.basic .getStats], [Call.externalStop monitorStop, Call.externalSafe monitorSafe],
    [Call.basic (.checkWatchdogs true (some false)), Call.setStop]].getD t [], c.Good := by
  intro t c hc
  match t with
  | 0 =>
    simp only [List.getD_cons_zero, List.mem_cons, List.not_mem_nil, or_false] at hc
    rcases hc with rfl | rfl <;> trivial
  | 1 =>
    simp only [List.getD_cons_succ, List.getD_cons_zero, List.mem_cons, List.not_mem_nil, or_false] at hc
    rcases hc with rfl | rfl
    · exact monitor_hooks_allowed.1
    · exact monitor_hooks_allowed.2
  | 2 =>
    simp only [List.getD_cons_succ, List.getD_cons_zero, List.mem_cons, List.not_mem_nil, or_false] at hc
    rcases hc with rfl | rfl <;> trivial
  | t + 3 => simp at hc

end Horus.SafetyLocks
