import Verif.Ring.Common
import Mathlib.Data.List.Sort
/-
Model of horus_core/src/scheduling/dependency_graph.rs: how the scheduler turns topic declarations
(or `.order()` values) into execution steps, successor lists and dependency counts.

Vectors indexed by node are functions on `Nat`, used below `n` only. A `HashMap` keyed by topic is
modelled by its lookup function. Topic declarations are what `TopicNodeRegistry` reports for the
node's name (duplicate node names are refused before the first tick, scheduler/mod.rs:2127-2142).
-/
namespace Horus.Sched.Graph
open Horus.Ring (upd upd_same upd_ne)

/-- What the graph builder reads of a registered node: the topics the registry lists it as
publishing and subscribing (dependency_graph.rs:70, 84, 101) and its `.order()` value
(`priority`, dependency_graph.rs:137). -/
structure NodeDecl where
  pubs : List String
  subs : List String
  order : Nat
deriving DecidableEq, Inhabited

/-- `nodes[i]` (dependency_graph.rs:69, 100). -/
def nodeAt (nodes : List NodeDecl) (i : Nat) : NodeDecl := nodes.getD i default

/-- `topic_producers.get(topic)`: every node index once per matching publisher entry, in index order
(dependency_graph.rs:66-80). -/
def producers (nodes : List NodeDecl) (t : String) : List Nat :=
  (List.range nodes.length).flatMap fun i => ((nodeAt nodes i).pubs.filter (· = t)).map fun _ => i

/-- `has_any_metadata` (dependency_graph.rs:67-88). -/
def hasMetadata (nodes : List NodeDecl) : Bool :=
  nodes.any fun d => !d.pubs.isEmpty || !d.subs.isEmpty

/-- `if producer != i && !edges[producer].contains(&i) { edges[producer].push(i) }`
(dependency_graph.rs:104-106). -/
def addEdge (e : Nat → List Nat) (pc : Nat × Nat) : Nat → List Nat :=
  if pc.1 ≠ pc.2 ∧ pc.2 ∉ e pc.1 then upd e pc.1 (e pc.1 ++ [pc.2]) else e

/-- The (producer, consumer) pairs visited by the three nested loops, in order
(dependency_graph.rs:100-103). -/
def attempts (nodes : List NodeDecl) : List (Nat × Nat) :=
  (List.range nodes.length).flatMap fun i =>
    (nodeAt nodes i).subs.flatMap fun t => (producers nodes t).map fun p => (p, i)

/-- `edges` after the loops (dependency_graph.rs:98-111). -/
def edges (nodes : List NodeDecl) : Nat → List Nat := (attempts nodes).foldl addEdge fun _ => []

/-- In-degree counting (dependency_graph.rs:114-119 and, identically, 274-279). -/
def inDegree (e : Nat → List Nat) (n : Nat) : Nat → Nat :=
  (List.range n).foldl (fun d p => (e p).foldl (fun d c => upd d c (d c + 1)) d) fun _ => 0

/-- The mutable locals of the sorting loop (dependency_graph.rs:274-283). -/
structure Kahn where
  deg : Nat → Nat
  rem : Nat → Bool
  steps : List (List Nat)
  processed : Nat

/-- How sorting ends: a finished order, a reported cycle, an arithmetic panic, or (fuel exhausted)
not at all. The last two are proved impossible. Source: scheduling/dependency_graph.rs. -/
inductive Outcome where
  | ok (steps : List (List Nat))
  | cycle (involved : List Nat)
  | panic
  | diverge
deriving DecidableEq

/-- `for &dep in &edges[node] { in_degree[dep] -= 1; }`, a checked subtraction
(dependency_graph.rs:299-301). -/
def decAll : (Nat → Nat) → List Nat → Option (Nat → Nat)
  | d, [] => some d
  | d, c :: cs => if d c = 0 then none else decAll (upd d c (d c - 1)) cs

/-- The loop over one step's nodes (dependency_graph.rs:296-302). -/
def removeAll (e : Nat → List Nat) : Kahn → List Nat → Option Kahn
  | k, [] => some k
  | k, i :: is =>
    match decAll k.deg (e i) with
    | none => none
    | some d => removeAll e { k with deg := d, rem := upd k.rem i false, processed := k.processed + 1 } is

/-- `(0..n).filter(|&i| remaining[i] && in_degree[i] == 0)` (dependency_graph.rs:287-289). -/
def nextStep (n : Nat) (k : Kahn) : List Nat :=
  (List.range n).filter fun i => k.rem i && k.deg i == 0

/-- The loop and what follows it (dependency_graph.rs:285-315). -/
def kahnLoop (e : Nat → List Nat) (n : Nat) : Nat → Kahn → Outcome
  | 0, _ => .diverge
  | fuel + 1, k =>
    let step := nextStep n k
    if step = [] then
      if k.processed < n then .cycle ((List.range n).filter k.rem) else .ok k.steps
    else
      match removeAll e k step with
      | none => .panic
      | some k' => kahnLoop e n fuel { k' with steps := k'.steps ++ [step] }

/-- `topological_parallel_sort` (dependency_graph.rs:270-316). `n + 1` rounds always suffice
(`topoSort_ends`). -/
def topoSort (e : Nat → List Nat) (n : Nat) : Outcome :=
  kahnLoop e n (n + 1) { deg := inDegree e n, rem := fun _ => true, steps := [], processed := 0 }

/-- The built graph (dependency_graph.rs:32-45). -/
structure Graph where
  steps : List (List Nat)
  successors : Nat → List Nat
  depCounts : Nat → Nat
  fromTopics : Bool

/-- `Vec::dedup`: drop every element equal to its predecessor (dependency_graph.rs:139). -/
def dedupAdjacent : List Nat → List Nat
  | a :: b :: l => if a = b then dedupAdjacent (b :: l) else a :: dedupAdjacent (b :: l)
  | l => l

/-- `sort_unstable` then `dedup` of the order values (dependency_graph.rs:137-139);
the sorted list of plain integers does not depend on the sorting algorithm. -/
def orderValues (nodes : List NodeDecl) : List Nat :=
  dedupAdjacent ((nodes.map (·.order)).insertionSort (· ≤ ·))

/-- The tiers (dependency_graph.rs:142-145). -/
def orderSteps (nodes : List NodeDecl) : List (List Nat) :=
  (orderValues nodes).map fun o =>
    (List.range nodes.length).filter fun i => (nodeAt nodes i).order == o

/-- One (pred, succ) pair of adjacent tiers (dependency_graph.rs:156-157). -/
def linkPair (sd : (Nat → List Nat) × (Nat → Nat)) (pc : Nat × Nat) :
    (Nat → List Nat) × (Nat → Nat) :=
  (upd sd.1 pc.1 (sd.1 pc.1 ++ [pc.2]), upd sd.2 pc.2 (sd.2 pc.2 + 1))

/-- The pairs visited by the loops over adjacent tiers (dependency_graph.rs:152-155). -/
def tierPairs : List (List Nat) → List (Nat × Nat)
  | a :: b :: rest => (a.flatMap fun p => b.map fun c => (p, c)) ++ tierPairs (b :: rest)
  | _ => []

/-- `build_from_order` (dependency_graph.rs:133-169). -/
def buildFromOrder (nodes : List NodeDecl) : Graph :=
  let steps := orderSteps nodes
  let sd := (tierPairs steps).foldl linkPair (fun _ => [], fun _ => 0)
  { steps := steps, successors := sd.1, depCounts := sd.2, fromTopics := false }

/-- Result of `build`. Source: scheduling/dependency_graph.rs. -/
inductive Built where
  | ok (g : Graph)
  | cycle (involved : List Nat)
  | panic
  | diverge

/-- `DependencyGraph::build` (dependency_graph.rs:53-128). -/
def build (nodes : List NodeDecl) : Built :=
  if nodes = [] then .ok { steps := [], successors := fun _ => [], depCounts := fun _ => 0, fromTopics := false }
  else if hasMetadata nodes then
    match topoSort (edges nodes) nodes.length with
    | .ok steps =>
      .ok { steps := steps, successors := edges nodes, depCounts := inDegree (edges nodes) nodes.length, fromTopics := true }
    | .cycle inv => .cycle inv
    | .panic => .panic
    | .diverge => .diverge
  else .ok (buildFromOrder nodes)

/-- `independent_chains` (dependency_graph.rs:209-236), for distinct indices: the chain map sends
every node to its own chain and nothing merges chains afterwards. The `HashMap` returns the chains
in some order; here in input order. -/
def independentChains (_g : Graph) (rt : List Nat) : List (List Nat) := rt.map fun i => [i]

end Horus.Sched.Graph
