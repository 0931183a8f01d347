import Mathlib.Tactic.Common
import Mathlib.Data.List.Nodup

/-!
Pacing: rate gates of the executors, how long one round of each loop takes, the virtual clock of
deterministic runs, load shedding on the compute pool, and the assignment of RT nodes to threads.

Times are natural numbers of nanoseconds. The source computes rates and elapsed times in `f64`
seconds; the model uses exact integers (simplification).
-/

namespace Horus.Pace

/-! ### rate gates -/

/-- `elapsed < 1/rate` skips the tick: main thread (scheduler/mod.rs:4241-4250), compute pool
(compute_executor.rs:137-144), async pool (async_executor.rs:146-153). True means "may tick". -/
def strictGate (period now last : Nat) : Bool := !decide (now - last < period)

/-- RT threads accept the tick half a loop period early (rt_executor.rs:804-815):
`elapsed < period - 0.5 * tick_period` skips. Multiplied by two to stay in integers. -/
def rtGate (period tickPeriod now last : Nat) : Bool := !decide (2 * (now - last) + tickPeriod < 2 * period)

/-- `last_tick` before cycle `k`, for a loop whose cycle `k` evaluates the gate at `L k` and, if the
node ticks, stamps `last_tick` at `S k` (compute_executor.rs:171-176, rt_executor.rs:208-211,
scheduler/mod.rs:4262-4264). -/
def lastBefore (g : Nat → Nat → Bool) (L S : Nat → Nat) (l0 : Option Nat) : Nat → Option Nat
  | 0 => l0
  | k + 1 =>
    match lastBefore g L S l0 k with
    | none => some (S k)
    | some t => if g (L k) t then some (S k) else some t

/-- Does the node tick in cycle `k`? A node that never ticked is not gated
(compute_executor.rs:138). -/
def fires (g : Nat → Nat → Bool) (L S : Nat → Nat) (l0 : Option Nat) (k : Nat) : Bool :=
  match lastBefore g L S l0 k with
  | none => true
  | some t => g (L k) t

/-! ### length of a round -/

/-- Start of main-loop round `k` when round `j` works for `w j`: the loop always sleeps one whole
period after its work (`compute_tick_sleep`, scheduler/mod.rs:3481-3493, 2846-2848). Oversleeping is
part of `w`. -/
def mainStart (T : Nat) (w : Nat → Nat) : Nat → Nat
  | 0 => 0
  | k + 1 => mainStart T w k + w k + T

/-- Start of loop `k` of an RT, compute or async thread: it waits for the rest of the period only
(rt_executor.rs:842-862, compute_executor.rs:290-293). -/
def execStart (T : Nat) (w : Nat → Nat) : Nat → Nat
  | 0 => 0
  | k + 1 => execStart T w k + max T (w k)

/-! ### deterministic runs -/

/-- One round in deterministic mode: the steps of the dependency graph run one after another, and
the virtual clock advances by the tick period after *each step* (scheduler/mod.rs:5064-5075,
2179-2195). Returns the times the steps see and the clock afterwards. -/
def detRound (T : Nat) : Nat → Nat → List Nat × Nat
  | 0, clk => ([], clk)
  | k + 1, clk =>
    let r := detRound T k (clk + T)
    (clk :: r.1, r.2)

/-- `run_for(d)` in deterministic mode (scheduler/mod.rs:2838-2850, `should_stop_loop` 3098-3124):
before each round the virtual time since the start is compared with `d`. `none`: still running after
`fuel` rounds. The result is the number of rounds and the times every step saw. A graph with no steps
and a missing graph (scheduler/mod.rs:5083-5092) both have `k = 0`: the clock is not advanced. -/
def detRunFor (T k d : Nat) (start : Nat) : Nat → Nat → Option (List (List Nat))
  | fuel, clk =>
    if clk - start ≥ d then some []
    else match fuel with
      | 0 => none
      | fuel + 1 =>
        let r := detRound T k clk
        (detRunFor T k d start fuel r.2).map (r.1 :: ·)

/-! ### load shedding -/

/-- `SHED_THRESHOLD` (compute_executor.rs:38). -/
def shedThreshold : Nat := 200

/-- `SHED_COOLDOWN_CYCLES` (compute_executor.rs:42). -/
def shedCooldown : Nat := 3

/-- Shedding state of the compute pool (compute_executor.rs:118-120). -/
structure Shed where
  active : Bool := false
  cool : Nat := 0
  deriving DecidableEq, Repr

/-- Does node `i` (with priority `prio i`, otherwise due: `due i`) tick in this cycle?
(compute_executor.rs:126-152). -/
def Shed.ticks (s : Shed) (prio : Nat → Nat) (due : Nat → Bool) (i : Nat) : Bool :=
  due i && !(s.active && decide (shedThreshold ≤ prio i))

/-- One cycle of a pool of `n` nodes (compute_executor.rs:121-294): if no node is ready the cycle ends
at once (154-161), before the shedding state is updated (264-287). `over` says whether the cycle's
work exceeded the period. -/
def Shed.cycle (n : Nat) (prio : Nat → Nat) (s : Shed) (c : (Nat → Bool) × Bool) : Shed :=
  if (List.range n).any (s.ticks prio c.1) then
    if c.2 then { active := true, cool := shedCooldown }
    else if s.active then
      (if s.cool - 1 = 0 then { active := false, cool := 0 } else { active := true, cool := s.cool - 1 })
    else s
  else s

/-- Any number of cycles. -/
def Shed.run (n : Nat) (prio : Nat → Nat) (s : Shed) (cs : List ((Nat → Bool) × Bool)) : Shed :=
  cs.foldl (Shed.cycle n prio) s

/-! ### RT threads -/

/-- `DependencyGraph::independent_chains` (dependency_graph.rs:209-236): every RT node starts in its
own chain and no chains are ever merged; the groups come out in hash order `σ` (any permutation). -/
def independentChains (σ : List Nat → List Nat) (rt : List Nat) : List (List Nat) :=
  match rt with
  | [] => []
  | [i] => [[i]]
  | rt => (σ rt).map fun i => [i]

/-- Hand out `xs` to groups of the given sizes, front first (scheduler/mod.rs:2757-2769: the list is
reversed and popped). -/
def deal {α} : List Nat → List α → List (List α)
  | [], _ => []
  | k :: ks, xs => xs.take k :: deal ks (xs.drop k)

/-- Which RT nodes share a thread (scheduler/mod.rs:2748-2780). `graph` says whether a dependency
graph exists. -/
def rtThreads {α} (graph : Bool) (σ : List Nat → List Nat) (nodes : List α) : List (List α) :=
  if graph then
    let g := independentChains σ (List.range nodes.length)
    if 1 < g.length then deal (g.map List.length) nodes else nodes.map fun x => [x]
  else nodes.map fun x => [x]

end Horus.Pace
