import Mathlib.Data.List.Basic
import Mathlib.Data.List.Nodup
import Mathlib.Tactic.Common

/-!
# Injecting recorded nodes

`horus record inject SESSION --nodes a,b [--all] [--script F] [--start-tick N] [--stop-tick N] [--loop]`
(`run_inject`, `horus_manager/src/commands/record.rs:719-995`): the recordings of the chosen nodes are added
to a scheduler (`add_replay`, `horus_core/src/scheduling/scheduler/recording.rs:37-101`) and it is run, with
a script beside it, once or again and again.

What stops a run: `run_with_filter` and `should_stop_loop` (`scheduler/mod.rs:2834-2890`, 3097-3141), the
handlers of `setup_signal_handlers` (2970-2993), `horus launch stop`'s command (4046-4050).

The process is a state machine: a turn of the main loop, Ctrl+C, SIGTERM, the shutdown command and the
two-second timer that Ctrl+C starts. What a tick of a replayed node publishes is in `Replay.Model`; here
a tick is recorded with the number of its run. Not modelled: speed and timing, the one second the script is
given to start, panics of nodes (a replayed node runs no code), the terminal sending Ctrl+C to the script
as well.
-/

namespace Horus.Inject

/-- Text. -/
abbrev Text := List Char

/-- `scheduler@` (record.rs:767). -/
def schedPrefix : Text := ['s','c','h','e','d','u','l','e','r','@']

/-- A recording of the session: the name of the file, and the name of the node stored in it. -/
structure File where
  name : Text
  node : Text
deriving DecidableEq, Repr

/-- The node a file is taken to be of (record.rs:772): what is before the first `@`. -/
def nodeOf (name : Text) : Text := name.takeWhile (· ≠ '@')

/-- Whether a file is injected (record.rs:764-777). -/
def wanted (all : Bool) (names : List Text) (f : File) : Bool :=
  !(schedPrefix.isPrefixOf f.name) && (all || names.contains (nodeOf f.name))

/-- The command's arguments (record.rs:707-716); `loads k f` says whether the file `f` can be read before run `k`. -/
structure Args where
  files : List File
  all : Bool := false
  names : List Text := []
  start : Option Nat := none
  stop : Option Nat := none
  loop : Bool := false
  script : Bool := false
  loads : Nat → File → Bool := fun _ _ => true

/-- The nodes added before run `k` (record.rs:760-799 for the first, 914-929 for the later ones): a file that
cannot be loaded is left out with a message. -/
def nodesAt (a : Args) (k : Nat) : List Text :=
  (a.files.filter fun f => wanted a.all a.names f && a.loads k f).map File.node

/-- The scheduler of one run: its nodes, tick, the tick it stops at, whether it goes on. -/
structure Run where
  no : Nat
  nodes : List Text
  tick : Nat
  stop : Option Nat
  running : Bool := true
deriving DecidableEq, Repr

/-- A new scheduler (record.rs:756-758 and 909-911) with the settings (808-815, 899, 932-937). `stop_at_tick`
changes the replay's settings and does nothing where nothing was added (recording.rs:248-254). -/
def newRun (a : Args) (k : Nat) : Run :=
  { no := k, nodes := nodesAt a k, tick := a.start.getD 0, stop := if nodesAt a k = [] then none else a.stop }

/-- How the command ends: with success, with an error, or by the timer's `exit(0)`. -/
inductive End | ok | err | forced
deriving DecidableEq, Repr

/-- The process: the current run, whose flag Ctrl+C clears, SIGTERM's flag, whether the timer runs, whether
the script runs, the ticks so far (run and tick), the runs whose nodes were shut down, how it ended. -/
structure Proc where
  run : Run
  handler : Option Nat := none
  term : Bool := false
  timer : Bool := false
  script : Bool := false
  log : List (Nat × Nat) := []
  shut : List Nat := []
  done : Option End := none

/-- The process at the end (record.rs:962-995): the script is killed by its guard. -/
def finish (p : Proc) (e : End) : Proc := { p with done := some e, script := false }

/-- `Scheduler::run` starting. Two nodes of one name are refused before anything else (C145); a loop takes
that for an interruption and ends with success (record.rs:939-947), a single run returns it (951). Then
the handlers: Ctrl+C's can be set once per process, and keeps the flag of the first run; SIGTERM's flag is
cleared (mod.rs:2970-2993). -/
def begin (a : Args) (p : Proc) : Proc :=
  if p.run.nodes.Nodup then { p with handler := p.handler <|> some p.run.no, term := false }
  else finish p (if a.loop then .ok else .err)

/-- The command up to the first turn (record.rs:719-892); `none` is an error before anything runs. -/
def start (a : Args) : Option Proc :=
  if nodesAt a 0 = [] then none else some (begin a { run := newRun a 0, script := a.script })

/-- What can happen. -/
inductive Ev | turn | ctrlC | sigterm | command | timer
deriving DecidableEq, Repr

/-- `should_stop_loop` without a duration (mod.rs:3097-3141). -/
def stops (p : Proc) : Bool := !p.run.running || (p.run.stop.elim false fun s => decide (s ≤ p.run.tick)) || p.term

/-- After a run (record.rs:902-938, 949-956): its nodes are shut down, then the next run or the end. -/
def after (a : Args) (p : Proc) : Proc :=
  let p := { p with shut := p.run.no :: p.shut }
  if a.loop then begin a { p with run := newRun a (p.run.no + 1) } else finish p .ok

/-- One event. -/
def step (a : Args) (p : Proc) : Ev → Proc
  | .turn =>
    if p.done.isSome then p
    else if stops p then after a p
    else { p with log := (p.run.no, p.run.tick) :: p.log, run := { p.run with tick := p.run.tick + 1 } }
  | .ctrlC =>
    if p.done.isSome then p
    else { p with timer := true, run := { p.run with running := p.run.running && decide (p.handler ≠ some p.run.no) } }
  | .sigterm => if p.done.isSome then p else { p with term := true }
  | .command => if p.done.isSome then p else { p with run := { p.run with running := false } }
  | .timer => if p.done.isSome ∨ p.timer = false then p else { p with done := some .forced }

/-- A history. -/
def runs (a : Args) (p : Proc) (l : List Ev) : Proc := l.foldl (step a) p

/-! ## What is injected -/

/-- **Exactly the chosen nodes are injected**: those recorded in a readable file of the session that is not
the scheduler's and, unless all are wanted, whose file name begins with one of the names given. -/
theorem injected_exact (a : Args) (k : Nat) (n : Text) :
    n ∈ nodesAt a k ↔ ∃ f ∈ a.files, f.node = n ∧ a.loads k f = true ∧ ¬ schedPrefix <+: f.name ∧ (a.all = true ∨ nodeOf f.name ∈ a.names) := by
  simp only [nodesAt, wanted, List.mem_map, List.mem_filter, Bool.and_eq_true, Bool.or_eq_true, List.contains_iff_mem, Bool.not_eq_true', ← Bool.not_eq_true, List.isPrefixOf_iff_prefix]
  constructor
  · rintro ⟨f, ⟨hf, ⟨h1, h2⟩, h3⟩, h4⟩; exact ⟨f, hf, h4, h3, h1, h2⟩
  · rintro ⟨f, hf, h4, h3, h1, h2⟩; exact ⟨f, ⟨hf, ⟨h1, h2⟩, h3⟩, h4⟩

/-- Nothing runs exactly when nothing was injected. -/
theorem refused_iff (a : Args) : start a = none ↔ nodesAt a 0 = [] := by
  unfold start; split <;> simp [*]

/-- A node called `scheduler` is never injected, whatever is asked for. -/
theorem scheduler_node_never (a : Args) (rest : Text) (k : Nat) (f : File) (hf : f.name = schedPrefix ++ rest) (h : ∀ g ∈ a.files, g.node = f.node → g = f) :
    f.node ∉ nodesAt a k := by
  rw [injected_exact]
  rintro ⟨g, hg, hn, -, hp, -⟩
  rw [h g hg hn, hf] at hp
  exact hp (List.prefix_append _ _)

/-! ## One run -/

/-- The ticks of run `k` from `t` on, newest first. -/
def ticks (k t : Nat) : Nat → List (Nat × Nat)
  | 0 => []
  | n + 1 => (k, t + n) :: ticks k t n

theorem ticks_mem (k t n : Nat) (x : Nat × Nat) : x ∈ ticks k t n ↔ x.1 = k ∧ t ≤ x.2 ∧ x.2 < t + n := by
  induction n with
  | zero => simp only [ticks, List.not_mem_nil, false_iff]; omega
  | succ n ih =>
    obtain ⟨i, j⟩ := x
    simp only [ticks, List.mem_cons, ih, Prod.mk.injEq]
    omega

/-- A run that goes on: nothing has told it to stop and its stop tick is not reached. -/
theorem turns_tick (a : Args) (p : Proc) (n : Nat) (hd : p.done = none) (hr : p.run.running = true) (ht : p.term = false) (hs : ∀ s, p.run.stop = some s → n = 0 ∨ p.run.tick + n ≤ s) :
    runs a p (List.replicate n .turn) = { p with log := ticks p.run.no p.run.tick n ++ p.log, run := { p.run with tick := p.run.tick + n } } := by
  induction n with
  | zero => rfl
  | succ n ih =>
    rw [List.replicate_succ', runs, List.foldl_append]
    change step a (runs a p (List.replicate n .turn)) .turn = _
    rw [ih (fun s h => by have := hs s h; omega)]
    have hst : stops { p with log := ticks p.run.no p.run.tick n ++ p.log, run := { p.run with tick := p.run.tick + n } } = false := by
      unfold stops
      dsimp only
      rw [hr, ht]
      cases h : p.run.stop with
      | none => rfl
      | some s => have := hs s h; simp only [Option.elim]; rw [decide_eq_false (by omega)]; rfl
    rw [step]
    dsimp only
    rw [if_neg (by rw [hd]; decide), if_neg (by rw [hst]; decide)]
    rfl

/-- The first run as it begins. -/
theorem start_some (a : Args) (h : nodesAt a 0 ≠ []) (hn : (nodesAt a 0).Nodup) :
    start a = some { run := newRun a 0, handler := some 0, script := a.script } := by
  unfold start
  rw [if_neg h]
  unfold begin
  rw [if_pos (show (newRun a 0).nodes.Nodup from hn)]
  rfl

theorem ended_stays (a : Args) (p : Proc) (l : List Ev) (h : p.done.isSome = true) : runs a p l = p := by
  induction l with
  | nil => rfl
  | cons e l ih =>
    rw [runs, List.foldl_cons]
    have : step a p e = p := by
      cases e
      all_goals rw [step]
      all_goals first | rw [if_pos h] | rw [if_pos (Or.inl h)]
    rw [this]
    exact ih

theorem runs_append (a : Args) (p : Proc) (l m : List Ev) : runs a p (l ++ m) = runs a (runs a p l) m := List.foldl_append

theorem runs_cons (a : Args) (p : Proc) (e : Ev) (m : List Ev) : runs a p (e :: m) = runs a (step a p e) m := rfl

theorem turn_ends (a : Args) (p : Proc) (hd : p.done = none) (hs : stops p = true) : step a p .turn = after a p := by
  rw [step, if_neg (by rw [hd]; decide), if_pos hs]

theorem begin_ok (a : Args) (p : Proc) (h : p.run.nodes.Nodup) : begin a p = { p with handler := p.handler <|> some p.run.no, term := false } := if_pos h

theorem stop_stops (p : Proc) (s : Nat) (h : p.run.stop = some s) (hs : s ≤ p.run.tick) : stops p = true := by
  unfold stops
  rw [h]
  simp only [Option.elim]
  rw [decide_eq_true hs, Bool.or_true, Bool.true_or]

/-- **A single run**: it makes exactly the ticks from the start tick up to the stop tick, in order and once
each, then shuts its nodes down, stops the script and ends with success. -/
theorem single_run (a : Args) (s : Nat) (hl : a.loop = false) (hs : a.stop = some s) (h : nodesAt a 0 ≠ []) (hn : (nodesAt a 0).Nodup) :
    ∃ p, start a = some p ∧ ∀ m, s - a.start.getD 0 < m →
      (runs a p (List.replicate m .turn)).log = ticks 0 (a.start.getD 0) (s - a.start.getD 0) ∧
      (runs a p (List.replicate m .turn)).shut = [0] ∧ (runs a p (List.replicate m .turn)).script = false ∧ (runs a p (List.replicate m .turn)).done = some .ok := by
  refine ⟨_, start_some a h hn, fun m hm => ?_⟩
  obtain ⟨j, rfl⟩ : ∃ j, m = (s - a.start.getD 0) + (j + 1) := ⟨m - (s - a.start.getD 0) - 1, by omega⟩
  have hstop : (newRun a 0).stop = some s := by unfold newRun; dsimp only; rw [if_neg h, hs]
  have htick : (newRun a 0).tick = a.start.getD 0 := rfl
  have key : runs a { run := newRun a 0, handler := some 0, script := a.script } (List.replicate (s - a.start.getD 0 + (j + 1)) .turn) =
      { run := { newRun a 0 with tick := (newRun a 0).tick + (s - a.start.getD 0) }, handler := some 0, script := false, log := ticks 0 (a.start.getD 0) (s - a.start.getD 0), shut := [0], done := some .ok } := by
    rw [List.replicate_add, runs_append, turns_tick a _ (s - a.start.getD 0) rfl rfl rfl (by intro s' h'; rw [show s' = s from Option.some.inj (h'.symm.trans hstop)]; show _ ∨ a.start.getD 0 + _ ≤ s; omega)]
    rw [List.replicate_succ, runs_cons, turn_ends _ _ rfl (stop_stops _ s hstop (by show s ≤ (newRun a 0).tick + (s - a.start.getD 0); omega))]
    rw [ended_stays _ _ _ (by unfold after; dsimp only; rw [if_neg (by rw [hl]; decide)]; rfl)]
    unfold after
    dsimp only
    rw [if_neg (by rw [hl]; decide), List.append_nil]
    rfl
  rw [key]
  exact ⟨rfl, rfl, rfl, rfl⟩

/-- **A signal ends a single run**: after Ctrl+C in the first run, SIGTERM or the shutdown command, the next
turn makes no tick, shuts the nodes down, stops the script and ends with success. -/
theorem single_stops (a : Args) (p : Proc) (e : Ev) (hl : a.loop = false) (hd : p.done = none) (hh : p.handler = some p.run.no) (he : e = .ctrlC ∨ e = .sigterm ∨ e = .command) :
    (runs a p [e, .turn]).log = p.log ∧ (runs a p [e, .turn]).shut = p.run.no :: p.shut ∧ (runs a p [e, .turn]).script = false ∧ (runs a p [e, .turn]).done = some .ok := by
  have fin : ∀ q : Proc, q.done = none → stops q = true → q.log = p.log → q.shut = p.shut → q.run.no = p.run.no →
      (step a q .turn).log = p.log ∧ (step a q .turn).shut = p.run.no :: p.shut ∧ (step a q .turn).script = false ∧ (step a q .turn).done = some .ok := by
    intro q h1 h2 h3 h4 h5
    rw [turn_ends a q h1 h2]
    unfold after
    dsimp only
    rw [if_neg (by rw [hl]; decide)]
    exact ⟨h3, by show q.run.no :: q.shut = _; rw [h4, h5], rfl, rfl⟩
  have hd' : ¬ p.done.isSome = true := by rw [hd]; decide
  rcases he with rfl | rfl | rfl
  · show (step a (step a p .ctrlC) .turn).log = _ ∧ (step a (step a p .ctrlC) .turn).shut = _ ∧ (step a (step a p .ctrlC) .turn).script = _ ∧ (step a (step a p .ctrlC) .turn).done = _
    have e : step a p .ctrlC = { p with timer := true, run := { p.run with running := p.run.running && decide (p.handler ≠ some p.run.no) } } := by rw [step, if_neg hd']
    rw [e]
    exact fin _ hd (by unfold stops; dsimp only; rw [hh]; simp) rfl rfl rfl
  · show (step a (step a p .sigterm) .turn).log = _ ∧ (step a (step a p .sigterm) .turn).shut = _ ∧ (step a (step a p .sigterm) .turn).script = _ ∧ (step a (step a p .sigterm) .turn).done = _
    have e : step a p .sigterm = { p with term := true } := by rw [step, if_neg hd']
    rw [e]
    exact fin _ hd (by unfold stops; dsimp only; simp) rfl rfl rfl
  · show (step a (step a p .command) .turn).log = _ ∧ (step a (step a p .command) .turn).shut = _ ∧ (step a (step a p .command) .turn).script = _ ∧ (step a (step a p .command) .turn).done = _
    have e : step a p .command = { p with run := { p.run with running := false } } := by rw [step, if_neg hd']
    rw [e]
    exact fin _ hd (by unfold stops; dsimp only; simp) rfl rfl rfl

/-- **The end of the recording ends nothing**: without a stop tick a run goes on for ever, in a loop as well:
after any number of turns it is still the first run. -/
theorem never_finishes (a : Args) (hs : a.stop = none) (h : nodesAt a 0 ≠ []) (hn : (nodesAt a 0).Nodup) (n : Nat) :
    ∃ p, start a = some p ∧ (runs a p (List.replicate n .turn)).done = none ∧ (runs a p (List.replicate n .turn)).run.no = 0 ∧ (runs a p (List.replicate n .turn)).run.tick = a.start.getD 0 + n := by
  refine ⟨_, start_some a h hn, ?_⟩
  rw [turns_tick a _ n rfl rfl rfl (by intro s h'; have h2 : (newRun a 0).stop = none := by unfold newRun; dsimp only; rw [hs, ite_self]
                                       rw [show ({ run := newRun a 0, handler := some 0, script := a.script } : Proc).run.stop = none from h2] at h'; cases h')]
  exact ⟨rfl, rfl, rfl⟩

/-! ## The loop -/

/-- All recordings of a session can be read whenever they are needed. -/
def Steady (a : Args) : Prop := ∀ k, nodesAt a k = nodesAt a 0

/-- The ticks of `k` rounds, newest first. -/
def rounds (t n : Nat) : Nat → List (Nat × Nat)
  | 0 => []
  | k + 1 => ticks k t n ++ rounds t n k

/-- **Every round makes the same ticks**: with a stop tick, `k` rounds of a loop make the ticks from the start
tick to the stop tick `k` times, and the nodes are shut down after each. -/
theorem loop_repeats (a : Args) (s : Nat) (hl : a.loop = true) (hs : a.stop = some s) (h : nodesAt a 0 ≠ []) (hn : (nodesAt a 0).Nodup) (hst : Steady a) (k : Nat) :
    ∃ p, start a = some p ∧
      runs a p (List.replicate (k * (s - a.start.getD 0 + 1)) .turn) =
        { p with run := newRun a k, log := rounds (a.start.getD 0) (s - a.start.getD 0) k, shut := (List.range k).reverse } := by
  refine ⟨_, start_some a h hn, ?_⟩
  induction k with
  | zero => rw [Nat.zero_mul]; rfl
  | succ k ih =>
    have hstop : (newRun a k).stop = some s := by unfold newRun; dsimp only; rw [if_neg (by rw [hst k]; exact h), hs]
    rw [Nat.succ_mul, List.replicate_add, runs_append, ih, List.replicate_add, runs_append]
    rw [turns_tick a _ (s - a.start.getD 0) rfl rfl rfl (by intro s' h'; rw [show s' = s from Option.some.inj (h'.symm.trans hstop)]; show _ ∨ a.start.getD 0 + _ ≤ s; omega)]
    rw [show List.replicate 1 Ev.turn = [.turn] from rfl, runs_cons, turn_ends _ _ rfl (stop_stops _ s hstop (by show s ≤ a.start.getD 0 + (s - a.start.getD 0); omega))]
    change after a _ = _
    unfold after
    dsimp only
    rw [if_pos hl]
    rw [begin_ok _ _ (show (nodesAt a (k + 1)).Nodup from by rw [hst]; exact hn)]
    rw [List.range_succ, List.reverse_append]
    rfl

/-- What holds of a loop however it has been told to stop. -/
theorem loop_invariant (a : Args) (hl : a.loop = true) (hn : ∀ k, (nodesAt a k).Nodup) (p : Proc) (l : List Ev) (hd : p.done = none) (hp : p.timer = false) (hc : Ev.ctrlC ∉ l) :
    (runs a p l).done = none ∧ (runs a p l).timer = false ∧ (runs a p l).script = p.script := by
  induction l generalizing p with
  | nil => exact ⟨hd, hp, rfl⟩
  | cons e l ih =>
    have hd' : ¬ p.done.isSome = true := by rw [hd]; decide
    have : (step a p e).done = none ∧ (step a p e).timer = false ∧ (step a p e).script = p.script := by
      cases e with
      | turn =>
        rw [step, if_neg hd']
        split
        · unfold after
          dsimp only
          rw [if_pos hl]
          unfold begin
          rw [if_pos (show (newRun a (p.run.no + 1)).nodes.Nodup from hn _)]
          exact ⟨hd, hp, rfl⟩
        · exact ⟨hd, hp, rfl⟩
      | ctrlC => exact absurd List.mem_cons_self hc
      | sigterm => rw [step, if_neg hd']; exact ⟨hd, hp, rfl⟩
      | command => rw [step, if_neg hd']; exact ⟨hd, hp, rfl⟩
      | timer => rw [step, if_pos (Or.inr hp)]; exact ⟨hd, hp, rfl⟩
    rw [runs_cons]
    obtain ⟨h1, h2, h3⟩ := ih (step a p e) this.1 this.2.1 (fun hm => hc (List.mem_cons_of_mem _ hm))
    exact ⟨h1, h2, h3.trans this.2.2⟩

/-- **A loop cannot be stopped but by Ctrl+C**: whatever turns, SIGTERMs and shutdown commands a loop gets, it
has not ended and its script still runs. -/
theorem loop_not_stopped (a : Args) (hl : a.loop = true) (h : nodesAt a 0 ≠ []) (hn : ∀ k, (nodesAt a k).Nodup) (l : List Ev) (hc : Ev.ctrlC ∉ l) :
    ∃ p, start a = some p ∧ (runs a p l).done = none ∧ (runs a p l).script = a.script := by
  refine ⟨_, start_some a h (hn 0), ?_⟩
  obtain ⟨h1, -, h3⟩ := loop_invariant a hl hn { run := newRun a 0, handler := some 0, script := a.script } l rfl rfl hc
  exact ⟨h1, h3⟩

/-- SIGTERM in a loop ends the run, and the next one begins as if nothing had happened. -/
theorem sigterm_restarts (a : Args) (hl : a.loop = true) (hn : ∀ k, (nodesAt a k).Nodup) (p : Proc) (hd : p.done = none) (hh : p.handler = some 0) :
    runs a p [.sigterm, .turn] = { p with run := newRun a (p.run.no + 1), shut := p.run.no :: p.shut, term := false } := by
  show step a (step a p .sigterm) .turn = _
  have hd' : ¬ p.done.isSome = true := by rw [hd]; decide
  have e : step a p .sigterm = { p with term := true } := by rw [step, if_neg hd']
  rw [e, turn_ends a { p with term := true } hd (by unfold stops; dsimp only; rw [Bool.or_true])]
  unfold after
  dsimp only
  rw [if_pos hl]
  unfold begin
  rw [if_pos (show (newRun a (p.run.no + 1)).nodes.Nodup from hn _)]
  dsimp only
  rw [hh]
  rfl

/-- **Ctrl+C in a later round stops no run**: it goes on ticking as long as the timer does not end the process,
and then neither its nodes are shut down nor the script stopped. -/
theorem later_ctrlC (a : Args) (p : Proc) (n : Nat) (hd : p.done = none) (hr : p.run.running = true) (ht : p.term = false) (hh : p.handler = some 0) (hk : p.run.no ≠ 0) (hs : p.run.stop = none) :
    (runs a p (.ctrlC :: List.replicate n .turn ++ [.timer])).log = ticks p.run.no p.run.tick n ++ p.log ∧
    (runs a p (.ctrlC :: List.replicate n .turn ++ [.timer])).done = some .forced ∧
    (runs a p (.ctrlC :: List.replicate n .turn ++ [.timer])).shut = p.shut ∧ (runs a p (.ctrlC :: List.replicate n .turn ++ [.timer])).script = p.script := by
  have hd' : ¬ p.done.isSome = true := by rw [hd]; decide
  have e : step a p .ctrlC = { p with timer := true } := by
    rw [step, if_neg hd', hr, hh, decide_eq_true (by intro h; exact hk (Option.some.inj h).symm)]
    obtain ⟨⟨_, _, _, _, _⟩, _, _, _, _, _, _, _⟩ := p
    cases hr
    rfl
  rw [List.cons_append, runs_cons, e, runs_append, turns_tick a { p with timer := true } n hd hr ht (by intro s h; rw [hs] at h; cases h)]
  have e2 : ∀ q : Proc, q.done = none → q.timer = true → runs a q [.timer] = { q with done := some .forced } := by
    intro q h1 h2
    show step a q .timer = _
    rw [step, if_neg (by rintro (h | h); · rw [h1] at h; cases h
                         · rw [h2] at h; cases h)]
  rw [e2 { p with timer := true, log := ticks p.run.no p.run.tick n ++ p.log, run := { p.run with tick := p.run.tick + n } } hd rfl]
  exact ⟨rfl, rfl, rfl, rfl⟩

/-- In the first round Ctrl+C ends the run — and the next begins; the script is stopped by neither. -/
theorem first_ctrlC (a : Args) (hl : a.loop = true) (hn : ∀ k, (nodesAt a k).Nodup) (p : Proc) (hd : p.done = none) (hh : p.handler = some p.run.no) :
    (runs a p [.ctrlC, .turn]).run = newRun a (p.run.no + 1) ∧ (runs a p [.ctrlC, .turn]).done = none ∧ (runs a p [.ctrlC, .turn, .timer]).done = some .forced ∧ (runs a p [.ctrlC, .turn, .timer]).script = p.script := by
  have hd' : ¬ p.done.isSome = true := by rw [hd]; decide
  have e : runs a p [.ctrlC, .turn] = { p with run := newRun a (p.run.no + 1), shut := p.run.no :: p.shut, term := false, timer := true } := by
    show step a (step a p .ctrlC) .turn = _
    have e1 : step a p .ctrlC = { p with timer := true, run := { p.run with running := false } } := by
      rw [step, if_neg hd', hh, decide_eq_false (by simp), Bool.and_false]
    rw [e1, turn_ends a { p with timer := true, run := { p.run with running := false } } hd (by unfold stops; rfl)]
    unfold after
    dsimp only
    rw [if_pos hl]
    unfold begin
    rw [if_pos (show (newRun a (p.run.no + 1)).nodes.Nodup from hn _)]
    dsimp only
    rw [hh]
    rfl
  have e3 : runs a p [.ctrlC, .turn, .timer] = step a (runs a p [.ctrlC, .turn]) .timer := rfl
  rw [e3, e]
  refine ⟨rfl, hd, ?_, ?_⟩
  · rw [step, if_neg (by rintro (h | h); · exact hd' h
                         · cases h)]
  · rw [step, if_neg (by rintro (h | h); · exact hd' h
                         · cases h)]

/-! ## Failures in a loop -/

/-- Two recordings of one node name: a single run reports it, a loop ends with success without a tick. -/
theorem loop_hides_error (a : Args) (h : nodesAt a 0 ≠ []) (hn : ¬ (nodesAt a 0).Nodup) :
    ∃ p, start a = some p ∧ p.log = [] ∧ p.done = some (if a.loop then .ok else .err) := by
  unfold start
  rw [if_neg h]
  refine ⟨_, rfl, ?_⟩
  unfold begin
  rw [if_neg (show ¬ (newRun a 0).nodes.Nodup from hn)]
  exact ⟨rfl, rfl⟩

/-- When the recordings are gone after a round, the next has no nodes, and its stop tick is ignored: it runs
for ever, replaying nothing. -/
theorem empty_round_stays (a : Args) (p : Proc) (k n : Nat) (hk : nodesAt a k = []) (hp : p.run = newRun a k) (hd : p.done = none) (ht : p.term = false) :
    (runs a p (List.replicate n .turn)).done = none ∧ (runs a p (List.replicate n .turn)).run.no = k ∧ (runs a p (List.replicate n .turn)).run.nodes = [] := by
  have hstop : p.run.stop = none := by rw [hp]; unfold newRun; dsimp only; rw [if_pos hk]
  rw [turns_tick a p n hd (by rw [hp]; rfl) ht (by intro s h; rw [hstop] at h; cases h)]
  refine ⟨hd, ?_, ?_⟩
  · show p.run.no = k; rw [hp]; rfl
  · show p.run.nodes = []; rw [hp]; exact hk

/-! ## Concrete cases -/

/-- A session with a camera, a motor and the scheduler's own file; the camera is injected, ticks 2 to 4. -/
def demo (lp : Bool) : Args :=
  { files := [⟨['c','a','m','@','1'], ['c','a','m']⟩, ⟨['m','o','t','@','2'], ['m','o','t']⟩, ⟨schedPrefix ++ ['3'], ['s']⟩], names := [['c','a','m']], start := some 2, stop := some 5, loop := lp, script := true }

example : nodesAt (demo false) 0 = [['c','a','m']] := by decide +kernel
example : (start (demo false)).map (fun p => (runs (demo false) p (List.replicate 9 .turn)).log) = some [(0, 4), (0, 3), (0, 2)] := by decide +kernel
example : (start (demo true)).map (fun p => (runs (demo true) p (List.replicate 8 .turn)).log) = some [(1, 4), (1, 3), (1, 2), (0, 4), (0, 3), (0, 2)] := by decide +kernel
example : (start (demo true)).map (fun p => (runs (demo true) p [.turn, .sigterm, .turn, .turn]).log) = some [(1, 2), (0, 2)] := by decide +kernel
example : (start (demo true)).map (fun p => let q := runs (demo true) p [.sigterm, .turn, .turn, .ctrlC, .turn, .turn, .timer]; (q.log, q.done, q.script, q.shut)) = some ([(1, 4), (1, 3), (1, 2)], some .forced, true, [0]) := by decide +kernel
example : Steady (demo true) := fun _ => rfl
example : ∀ k, (nodesAt (demo true) k).Nodup := fun _ => by show (nodesAt (demo true) 0).Nodup; decide +kernel
/-- A node recorded twice. -/
example : (start { files := [⟨['c','@','1'], ['c']⟩, ⟨['c','@','2'], ['c']⟩], all := true, loop := true }).map (·.done) = some (some .ok) := by decide +kernel
/-- Recordings deleted after the first round. -/
example : (start { demo true with loads := fun k _ => decide (k = 0) }).map (fun p => (runs { demo true with loads := fun k _ => decide (k = 0) } p (List.replicate 30 .turn)).run.tick) = some 28 := by decide +kernel

end Horus.Inject
