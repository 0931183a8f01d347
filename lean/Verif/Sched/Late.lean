import Verif.Sched.GraphProps
/-
Model of the part of `Scheduler` that decides which nodes a `tick_once()` call ticks and in which
order: the topic registry the nodes write into while they run, the dependency graph built from it,
and the rule that decides when that graph is built again.

Sources: horus_core/src/communication/topic/mod.rs:335-449 (`TopicNodeRegistry`), 3084-3119
(registration by the first `send`/`recv`), horus_core/src/scheduling/scheduler/mod.rs:2011-2104
(`build_dependency_graph`, `finalize_and_init`), 2131-2210 (`tick_once`, `execute_single_tick`),
2995-3000 and 3143-3169 (initialisation).

Simplifications: every `init()` succeeds, no node is paused, stopped, rate limited or failing (those
are the subject of Verif/Loop), node names are distinct (duplicates are refused by `tick_once`,
scheduler/mod.rs:2133-2146), and what a node registers during one `init`/`tick` call is an arbitrary
list chosen by the caller of the model. The registry is a list in registration order; the source keeps
a `HashMap` of lists. `unregister` has no caller in the source and is left out.
-/
namespace Horus.Sched.Late
open Horus.Sched.Graph

/-- `NodeTopicRole` (communication/topic/mod.rs, used at 377-386). -/
inductive Role where
  | pub
  | sub
  | both
deriving DecidableEq, Inhabited

/-- One `TopicAssociation` together with the topic it is filed under
(communication/topic/mod.rs:373-393). -/
structure Assoc where
  topic : String
  node : String
  role : Role
deriving DecidableEq, Inhabited

/-- `TopicNodeRegistry` (communication/topic/mod.rs:333-351). -/
structure Registry where
  entries : List Assoc
  version : Nat
deriving DecidableEq, Inhabited

/-- The role upgrade (communication/topic/mod.rs:379-386). -/
def upgrade : Role → Role → Role
  | .pub, .sub => .both
  | .sub, .pub => .both
  | r, _ => r

/-- Replace the role of the first entry filed for this topic and node
(communication/topic/mod.rs:377-386); `none` if there is no such entry. -/
def upgradeFirst (topic node : String) (role : Role) : List Assoc → Option (List Assoc)
  | [] => none
  | a :: as =>
    if a.topic = topic ∧ a.node = node then some ({ a with role := upgrade a.role role } :: as)
    else (upgradeFirst topic node role as).map (a :: ·)

/-- `register_with_type` (communication/topic/mod.rs:366-395): the version moves when an entry is added
or a role is upgraded, and not otherwise. -/
def Registry.register (r : Registry) (topic node : String) (role : Role) : Registry :=
  match upgradeFirst topic node role r.entries with
  | some es => if es = r.entries then r else ⟨es, r.version + 1⟩
  | none => ⟨r.entries ++ [⟨topic, node, role⟩], r.version + 1⟩

/-- The registrations of one `init`/`tick` call of a node: `send` registers a publisher, `recv` a
subscriber (communication/topic/mod.rs:3084-3119). -/
def Registry.registerAll (r : Registry) (node : String) (l : List (String × Role)) : Registry :=
  l.foldl (fun r x => r.register x.1 node x.2) r

/-- `publishers_for_node` (communication/topic/mod.rs:414-430), topic names only. -/
def Registry.pubsOf (r : Registry) (node : String) : List String :=
  (r.entries.filter fun a => a.node = node ∧ a.role ≠ .sub).map (·.topic)

/-- `subscribers_for_node` (communication/topic/mod.rs:433-449), topic names only. -/
def Registry.subsOf (r : Registry) (node : String) : List String :=
  (r.entries.filter fun a => a.node = node ∧ a.role ≠ .pub).map (·.topic)

/-- The fields of `RegisteredNode` read here: `name`, `priority`, `initialized`
(scheduling/scheduler/mod.rs:2197, 2997-3000, 3145). -/
structure Node where
  name : String
  order : Nat
  inited : Bool
deriving DecidableEq, Inhabited

/-- The fields of `Scheduler` read here (scheduling/scheduler/mod.rs:2064-2103, 2171-2210), plus the
process-wide registry. `graph` holds the steps of `dependency_graph`. -/
structure St where
  nodes : List Node
  reg : Registry
  graph : Option (List (List Nat))
  gver : Nat
  initialized : Bool
  firstDone : Bool
deriving DecidableEq, Inhabited

/-- What the nodes register while they run in one `tick_once` call: by node name, the topics (and
directions) first used in `init` and in `tick`. -/
structure Behaviour where
  onInit : String → List (String × Role)
  onTick : String → List (String × Role)

/-- A scheduler before the first call, in a process whose registry is `r`
(scheduling/scheduler/mod.rs, `Scheduler::new`: no graph, version 0, flags false). -/
def fresh (nodes : List Node) (r : Registry) : St := { nodes := nodes, reg := r, graph := none, gver := 0, initialized := false, firstDone := false }

/-- What `DependencyGraph::build(&self.nodes)` reads (scheduling/dependency_graph.rs:65-101). -/
def decls (nodes : List Node) (r : Registry) : List NodeDecl :=
  nodes.map fun n => { pubs := r.pubsOf n.name, subs := r.subsOf n.name, order := n.order }

/-- `build_dependency_graph_inner` (scheduling/scheduler/mod.rs:2015-2057): an error leaves no graph. -/
def rebuild (s : St) : St :=
  { s with graph := match build (decls s.nodes s.reg) with | .ok g => some g.steps | _ => none }

/-- `initialize_filtered_nodes(None)` and `reinit_pending_nodes` (scheduling/scheduler/mod.rs:2995-3022,
3143-3169), under the simplifications above: every node not yet initialised is. -/
def initNodes (b : Behaviour) (s : St) : St :=
  { s with
    nodes := s.nodes.map fun n => { n with inited := true }
    reg := (s.nodes.filter fun n => !n.inited).foldl (fun r n => r.registerAll n.name (b.onInit n.name)) s.reg }

/-- `finalize_and_init` (scheduling/scheduler/mod.rs:2063-2104). -/
def finalize (b : Behaviour) (s : St) : St :=
  if s.initialized then s
  else
    let s := rebuild (initNodes b s)
    { s with gver := s.reg.version, initialized := true }

/-- The "Phase 2" check (scheduling/scheduler/mod.rs:2171-2177). -/
def refresh (s : St) : St :=
  if s.firstDone ∧ 0 < s.gver ∧ s.reg.version ≠ s.gver then { rebuild s with gver := s.reg.version }
  else s

/-- `self.nodes[i]` for each index of the steps in turn; `none` is the index panic
(scheduling/scheduler/mod.rs:2180-2188, 4418-4427). -/
def pick (nodes : List Node) : List Nat → Option (List Node)
  | [] => some []
  | i :: is =>
    match nodes[i]? with
    | none => none
    | some n => (pick nodes is).map (n :: ·)

/-- One node after another is ticked and registers what it uses
(scheduling/scheduler/mod.rs:2181-2188). -/
def tickNodes (b : Behaviour) (r : Registry) (l : List Node) : Registry :=
  l.foldl (fun r n => r.registerAll n.name (b.onTick n.name)) r

/-- The nodes that will be ticked and their stored order: the graph's steps, or every node by
`.order()` if there is no graph (scheduling/scheduler/mod.rs:2179-2206). -/
def plan (s : St) : Option (List Node × List Node) :=
  match s.graph with
  | some steps => (pick s.nodes steps.flatten).map fun l => (s.nodes, l)
  | none =>
    let l := s.nodes.insertionSort fun a b => a.order ≤ b.order
    some (l, l)

/-- The state in which the nodes of a call are picked: after the lazy initialisation, the
initialisation of nodes added since, and the rebuild check (scheduling/scheduler/mod.rs:2132-2177). -/
def ready (b : Behaviour) (s : St) : St := refresh (initNodes b (finalize b s))

/-- `tick_once` (scheduling/scheduler/mod.rs:2131-2210): the new state and the names of the ticked
nodes in the order they were ticked; `none` is a panic. -/
def tickOnce (b : Behaviour) (s : St) : Option (St × List String) :=
  let s := ready b s
  match plan s with
  | none => none
  | some (nodes, l) =>
    some ({ s with nodes := nodes, reg := tickNodes b s.reg l, firstDone := true }, l.map (·.name))

/-- One call on the scheduler: `add(..).order(..).build()` (scheduling/scheduler/mod.rs:1721-1910, the
node is pushed uninitialised) or `tick_once()`. -/
inductive Ev where
  | add (name : String) (order : Nat)
  | tick (b : Behaviour)

/-- One call; the output is what it ticked. Source: scheduling/scheduler/mod.rs:1721-1910, 2131-2210. -/
def step (s : St) : Ev → Option (St × List String)
  | .add name order => some ({ s with nodes := s.nodes ++ [⟨name, order, false⟩] }, [])
  | .tick b => tickOnce b s

/-- A history of calls and what each of them ticked. Source: scheduling/scheduler/mod.rs. -/
def run : St → List Ev → Option (St × List (List String))
  | s, [] => some (s, [])
  | s, e :: es =>
    match step s e with
    | none => none
    | some (s1, out) => (run s1 es).map fun x => (x.1, out :: x.2)

/-! ### Specification -/

/-- `a` occurs in `l` before an occurrence of `b`. -/
def Before (l : List String) (a b : String) : Prop := ∃ l1 l2 l3, l = l1 ++ a :: l2 ++ b :: l3

/-- The registry lists `node` as publishing (or as subscribing) `topic`. -/
def Publishes (r : Registry) (node topic : String) : Prop :=
  ∃ a ∈ r.entries, a.topic = topic ∧ a.node = node ∧ (a.role = .pub ∨ a.role = .both)
def Subscribes (r : Registry) (node topic : String) : Prop :=
  ∃ a ∈ r.entries, a.topic = topic ∧ a.node = node ∧ (a.role = .sub ∨ a.role = .both)

/-- `p` must run before `c`: another node publishes a topic `c` subscribes. -/
def Feeds (r : Registry) (p c : String) : Prop := p ≠ c ∧ ∃ t, Publishes r p t ∧ Subscribes r c t

/-- No node among `names` (transitively) feeds itself. -/
def NoLoop (r : Registry) (names : List String) : Prop :=
  ∀ n ∈ names, ¬ Relation.TransGen (fun p c => p ∈ names ∧ c ∈ names ∧ Feeds r p c) n n

/-! ### The registry -/

theorem register_version_le (r : Registry) (t n : String) (role : Role) :
    r.version ≤ (r.register t n role).version := by
  unfold Registry.register
  split
  · split <;> simp
  · simp

/-- The version moves exactly when the entries change. -/
theorem register_version (r : Registry) (t n : String) (role : Role) :
    ((r.register t n role).version = r.version ↔ r.register t n role = r) := by
  unfold Registry.register
  split
  · split
    · simp
    · constructor
      · intro h; simp at h
      · intro h; have := congrArg Registry.version h; simp at this
  · constructor
    · intro h; simp at h
    · intro h; have := congrArg Registry.version h; simp at this

theorem registerAll_version_le (l : List (String × Role)) (n : String) (r : Registry) :
    r.version ≤ (r.registerAll n l).version := by
  induction l generalizing r with
  | nil => exact Nat.le_refl _
  | cons x xs ih => exact Nat.le_trans (register_version_le r x.1 n x.2) (ih _)

theorem registerAll_version (l : List (String × Role)) (n : String) (r : Registry)
    (h : (r.registerAll n l).version = r.version) : r.registerAll n l = r := by
  induction l generalizing r with
  | nil => rfl
  | cons x xs ih =>
    have h1 := register_version_le r x.1 n x.2
    have h2 := registerAll_version_le xs n (r.register x.1 n x.2)
    have h3 : ((r.register x.1 n x.2).registerAll n xs).version = r.version := h
    have h4 : r.register x.1 n x.2 = r := (register_version r x.1 n x.2).1 (by omega)
    have h5 : r.registerAll n (x :: xs) = (r.register x.1 n x.2).registerAll n xs := rfl
    rw [h5] at h ⊢
    rw [h4] at h ⊢
    exact ih r h

theorem fold_version_le (f : Node → List (String × Role)) (l : List Node) (r : Registry) :
    r.version ≤ (l.foldl (fun r n => r.registerAll n.name (f n)) r).version := by
  induction l generalizing r with
  | nil => exact Nat.le_refl _
  | cons x xs ih => exact Nat.le_trans (registerAll_version_le _ _ _) (ih _)

theorem fold_version (f : Node → List (String × Role)) (l : List Node) (r : Registry)
    (h : (l.foldl (fun r n => r.registerAll n.name (f n)) r).version = r.version) :
    l.foldl (fun r n => r.registerAll n.name (f n)) r = r := by
  induction l generalizing r with
  | nil => rfl
  | cons x xs ih =>
    have h1 := registerAll_version_le (f x) x.name r
    have h2 := fold_version_le f xs (r.registerAll x.name (f x))
    have h3 : (xs.foldl (fun r n => r.registerAll n.name (f n)) (r.registerAll x.name (f x))).version = r.version := h
    have h4 := registerAll_version (f x) x.name r (by omega)
    have h5 : (x :: xs).foldl (fun r n => r.registerAll n.name (f n)) r = xs.foldl (fun r n => r.registerAll n.name (f n)) (r.registerAll x.name (f x)) := rfl
    rw [h5] at h ⊢
    rw [h4] at h ⊢
    exact ih r h

theorem mem_pubsOf (r : Registry) (n t : String) : t ∈ r.pubsOf n ↔ Publishes r n t := by
  unfold Registry.pubsOf Publishes
  simp only [List.mem_map, List.mem_filter, decide_eq_true_eq]
  constructor
  · rintro ⟨a, ⟨h1, h2, h3⟩, rfl⟩
    refine ⟨a, h1, rfl, h2, ?_⟩
    revert h3; cases a.role <;> simp
  · rintro ⟨a, h1, rfl, h2, h3⟩
    refine ⟨a, ⟨h1, h2, ?_⟩, rfl⟩
    rcases h3 with h | h <;> rw [h] <;> simp

theorem mem_subsOf (r : Registry) (n t : String) : t ∈ r.subsOf n ↔ Subscribes r n t := by
  unfold Registry.subsOf Subscribes
  simp only [List.mem_map, List.mem_filter, decide_eq_true_eq]
  constructor
  · rintro ⟨a, ⟨h1, h2, h3⟩, rfl⟩
    refine ⟨a, h1, rfl, h2, ?_⟩
    revert h3; cases a.role <;> simp
  · rintro ⟨a, h1, rfl, h2, h3⟩
    refine ⟨a, ⟨h1, h2, ?_⟩, rfl⟩
    rcases h3 with h | h <;> rw [h] <;> simp

theorem upgradeFirst_mem (t n : String) (role : Role) (es es' : List Assoc) (P : Role → Prop)
    (h : upgradeFirst t n role es = some es') (hP : ∀ r0, P r0 → P (upgrade r0 role)) (n' t' : String) :
    (∃ a ∈ es', a.topic = t' ∧ a.node = n' ∧ P a.role) ↔
      (∃ a ∈ es, a.topic = t' ∧ a.node = n' ∧ P a.role) ∨
        (t' = t ∧ n' = n ∧ ∃ r0, (∃ a ∈ es, a.topic = t ∧ a.node = n ∧ a.role = r0) ∧
          P (upgrade r0 role) ∧ ¬ P r0 ∧
          es.find? (fun a => a.topic = t ∧ a.node = n) = some ⟨t, n, r0⟩) := by
  induction es generalizing es' with
  | nil => simp [upgradeFirst] at h
  | cons a as ih =>
    unfold upgradeFirst at h
    by_cases hc : a.topic = t ∧ a.node = n
    · rw [if_pos hc] at h
      obtain rfl := Option.some.inj h
      obtain ⟨rfl, rfl⟩ := hc
      by_cases hp : P a.role
      · constructor
        · rintro ⟨x, hx, h1, h2, h3⟩
          rcases List.mem_cons.1 hx with rfl | hx
          · exact Or.inl ⟨a, List.mem_cons_self .., h1, h2, hp⟩
          · exact Or.inl ⟨x, List.mem_cons_of_mem _ hx, h1, h2, h3⟩
        · rintro (⟨x, hx, h1, h2, h3⟩ | ⟨rfl, rfl, r0, _, h2, h3, h4⟩)
          · rcases List.mem_cons.1 hx with rfl | hx
            · exact ⟨_, List.mem_cons_self .., h1, h2, hP _ hp⟩
            · exact ⟨x, List.mem_cons_of_mem _ hx, h1, h2, h3⟩
          · simp at h4; rw [h4] at hp; exact absurd hp h3
      · constructor
        · rintro ⟨x, hx, h1, h2, h3⟩
          rcases List.mem_cons.1 hx with rfl | hx
          · refine Or.inr ⟨h1.symm, h2.symm, a.role, ⟨a, List.mem_cons_self .., rfl, rfl, rfl⟩, h3, hp, ?_⟩
            simp
          · exact Or.inl ⟨x, List.mem_cons_of_mem _ hx, h1, h2, h3⟩
        · rintro (⟨x, hx, h1, h2, h3⟩ | ⟨rfl, rfl, r0, _, h2, h3, h4⟩)
          · rcases List.mem_cons.1 hx with rfl | hx
            · exact absurd h3 hp
            · exact ⟨x, List.mem_cons_of_mem _ hx, h1, h2, h3⟩
          · refine ⟨_, List.mem_cons_self .., rfl, rfl, ?_⟩
            simp at h4; rw [h4]; exact h2
    · rw [if_neg hc] at h
      obtain ⟨es1, h1, rfl⟩ := Option.map_eq_some_iff.1 h
      clear h
      have := ih es1 h1
      have hf : (a :: as).find? (fun a => a.topic = t ∧ a.node = n) = as.find? (fun a => a.topic = t ∧ a.node = n) := by
        rw [List.find?_cons_of_neg]; simpa using hc
      rw [hf]
      constructor
      · rintro ⟨x, hx, h⟩
        rcases List.mem_cons.1 hx with rfl | hx
        · exact Or.inl ⟨x, List.mem_cons_self .., h⟩
        · rcases this.1 ⟨x, hx, h⟩ with ⟨y, hy, h'⟩ | ⟨e1, e2, r0, ⟨y, hy, h'⟩, h''⟩
          · exact Or.inl ⟨y, List.mem_cons_of_mem _ hy, h'⟩
          · exact Or.inr ⟨e1, e2, r0, ⟨y, List.mem_cons_of_mem _ hy, h'⟩, h''⟩
      · rintro (⟨x, hx, h⟩ | ⟨e1, e2, r0, ⟨y, hy, h'⟩, h''⟩)
        · rcases List.mem_cons.1 hx with rfl | hx
          · exact ⟨x, List.mem_cons_self .., h⟩
          · obtain ⟨y, hy, h'⟩ := this.2 (Or.inl ⟨x, hx, h⟩)
            exact ⟨y, List.mem_cons_of_mem _ hy, h'⟩
        · rcases List.mem_cons.1 hy with rfl | hy
          · exact absurd ⟨h'.1, h'.2.1⟩ hc
          · obtain ⟨y, hy, h'⟩ := this.2 (Or.inr ⟨e1, e2, r0, ⟨y, hy, h'⟩, h''⟩)
            exact ⟨y, List.mem_cons_of_mem _ hy, h'⟩

theorem upgradeFirst_hit {t n : String} {role : Role} {es es' : List Assoc}
    (h : upgradeFirst t n role es = some es') :
    ∃ r0, es.find? (fun a => a.topic = t ∧ a.node = n) = some ⟨t, n, r0⟩ ∧
      ∃ a ∈ es', a.topic = t ∧ a.node = n ∧ a.role = upgrade r0 role := by
  induction es generalizing es' with
  | nil => simp [upgradeFirst] at h
  | cons a as ih =>
    unfold upgradeFirst at h
    by_cases hc : a.topic = t ∧ a.node = n
    · rw [if_pos hc] at h
      obtain rfl := Option.some.inj h
      obtain ⟨rfl, rfl⟩ := hc
      exact ⟨a.role, by simp, _, List.mem_cons_self .., rfl, rfl, rfl⟩
    · rw [if_neg hc] at h
      obtain ⟨es1, h1, rfl⟩ := Option.map_eq_some_iff.1 h
      obtain ⟨r0, h2, x, hx, h3⟩ := ih h1
      refine ⟨r0, ?_, x, List.mem_cons_of_mem _ hx, h3⟩
      rw [List.find?_cons_of_neg]
      · exact h2
      · simpa using hc

/-- What a registration changes: `send` adds exactly one publisher and no subscriber, `recv` exactly
one subscriber and no publisher. -/
theorem register_effect (r : Registry) (t n n' t' : String) :
    (Publishes (r.register t n .pub) n' t' ↔ Publishes r n' t' ∨ (n' = n ∧ t' = t)) ∧
    (Subscribes (r.register t n .pub) n' t' ↔ Subscribes r n' t') ∧
    (Subscribes (r.register t n .sub) n' t' ↔ Subscribes r n' t' ∨ (n' = n ∧ t' = t)) ∧
    (Publishes (r.register t n .sub) n' t' ↔ Publishes r n' t') := by
  have gain : ∀ (role : Role) (P : Role → Prop), (∀ r0, P (upgrade r0 role)) → P role →
      ((∃ a ∈ (r.register t n role).entries, a.topic = t' ∧ a.node = n' ∧ P a.role) ↔
        (∃ a ∈ r.entries, a.topic = t' ∧ a.node = n' ∧ P a.role) ∨ (n' = n ∧ t' = t)) := by
    intro role P hP hrole
    have main : ∀ es', upgradeFirst t n role r.entries = some es' →
        ((∃ a ∈ es', a.topic = t' ∧ a.node = n' ∧ P a.role) ↔
        (∃ a ∈ r.entries, a.topic = t' ∧ a.node = n' ∧ P a.role) ∨ (n' = n ∧ t' = t)) := by
      intro es' h
      rw [upgradeFirst_mem t n role _ _ P h (fun r0 _ => hP r0)]
      constructor
      · rintro (h1 | ⟨e1, e2, _⟩)
        · exact Or.inl h1
        · exact Or.inr ⟨e2, e1⟩
      · rintro (h1 | ⟨rfl, rfl⟩)
        · exact Or.inl h1
        · rw [← upgradeFirst_mem t' n' role _ _ P h (fun r0 _ => hP r0)]
          obtain ⟨r0, _, a, ha, h1, h2, h3⟩ := upgradeFirst_hit h
          exact ⟨a, ha, h1, h2, h3 ▸ hP r0⟩
    unfold Registry.register
    split
    · rename_i es h
      split
      · rename_i he; rw [← main es h, he]
      · exact main es h
    · constructor
      · rintro ⟨a, ha, h1, h2, h3⟩
        rcases List.mem_append.1 ha with ha | ha
        · exact Or.inl ⟨a, ha, h1, h2, h3⟩
        · simp at ha; subst ha; exact Or.inr ⟨h2.symm, h1.symm⟩
      · rintro (⟨a, ha, h⟩ | ⟨rfl, rfl⟩)
        · exact ⟨a, List.mem_append_left _ ha, h⟩
        · exact ⟨⟨t', n', role⟩, by simp, rfl, rfl, hrole⟩
  have keep : ∀ (role : Role) (P : Role → Prop), (∀ r0, P (upgrade r0 role) ↔ P r0) → ¬ P role →
      ((∃ a ∈ (r.register t n role).entries, a.topic = t' ∧ a.node = n' ∧ P a.role) ↔
        (∃ a ∈ r.entries, a.topic = t' ∧ a.node = n' ∧ P a.role)) := by
    intro role P hP hrole
    unfold Registry.register
    split
    · rename_i es h
      split
      · rfl
      · show (∃ a ∈ es, _) ↔ _
        rw [upgradeFirst_mem t n role _ _ P h (fun r0 hh => (hP r0).2 hh)]
        constructor
        · rintro (h1 | ⟨_, _, r0, _, h2, h3, _⟩)
          · exact h1
          · exact absurd ((hP r0).1 h2) h3
        · exact Or.inl
    · constructor
      · rintro ⟨a, ha, h1, h2, h3⟩
        rcases List.mem_append.1 ha with ha | ha
        · exact ⟨a, ha, h1, h2, h3⟩
        · simp at ha; subst ha; exact absurd h3 hrole
      · rintro ⟨a, ha, h⟩
        exact ⟨a, List.mem_append_left _ ha, h⟩
  refine ⟨?_, ?_, ?_, ?_⟩
  · exact gain .pub (fun r => r = .pub ∨ r = .both) (by intro r0; cases r0 <;> simp [upgrade]) (by simp)
  · exact keep .pub (fun r => r = .sub ∨ r = .both) (by intro r0; cases r0 <;> simp [upgrade]) (by simp)
  · exact gain .sub (fun r => r = .sub ∨ r = .both) (by intro r0; cases r0 <;> simp [upgrade]) (by simp)
  · exact keep .sub (fun r => r = .pub ∨ r = .both) (by intro r0; cases r0 <;> simp [upgrade]) (by simp)

/-! ### What a call ticks -/

theorem build_total (nodes : List NodeDecl) :
    (∃ g, build nodes = .ok g) ∨ (∃ inv, build nodes = .cycle inv) := by
  rcases h : build nodes with g | inv | _ | _
  · exact Or.inl ⟨g, rfl⟩
  · exact Or.inr ⟨inv, rfl⟩
  all_goals have := build_ends nodes; rw [h] at this; simp at this

theorem pick_some (nodes : List Node) (l : List Nat) (h : ∀ i ∈ l, i < nodes.length) :
    pick nodes l = some (l.map fun i => nodes.getD i default) := by
  induction l with
  | nil => rfl
  | cons i is ih =>
    have hi := h i (List.mem_cons_self ..)
    unfold pick
    rw [List.getElem?_eq_getElem hi]
    dsimp only
    rw [ih fun j hj => h j (List.mem_cons_of_mem _ hj)]
    simp [hi]

theorem map_range_getD (nodes : List Node) (m : Nat) (h : m ≤ nodes.length) :
    (List.range m).map (fun i => nodes.getD i default) = nodes.take m := by
  apply List.ext_getElem
  · simp [h]
  · intro i h1 h2
    simp at h1 h2
    simp [h2.2]

theorem pick_perm (nodes : List Node) (l : List Nat) (m : Nat) (hm : m ≤ nodes.length)
    (h : l.Perm (List.range m)) :
    ∃ picked, pick nodes l = some picked ∧ picked.Perm (nodes.take m) := by
  refine ⟨_, pick_some nodes l ?_, ?_⟩
  · intro i hi
    have := h.mem_iff.1 hi
    rw [List.mem_range] at this
    omega
  · have := h.map fun i => nodes.getD i default
    rwa [map_range_getD nodes m hm] at this

/-- What the graph knows of a node: its name and its `.order()`. -/
def key (n : Node) : String × Nat := (n.name, n.order)

theorem decls_key {a b : List Node} (r : Registry) (h : a.map key = b.map key) :
    decls a r = decls b r := by
  have : ∀ l : List Node, decls l r = (l.map key).map fun k => { pubs := r.pubsOf k.1, subs := r.subsOf k.1, order := k.2 } := by
    intro l; simp [decls, key]
  rw [this, this, h]

/-- The state of the graph between calls: it was built for the nodes `N0` and the registry `r0`. -/
structure GraphFor (s : St) (N0 : List Node) (r0 : Registry) : Prop where
  ver : s.gver = r0.version
  le : r0.version ≤ s.reg.version
  same : s.reg.version = r0.version → s.reg = r0
  known : ∃ rest, (N0.map (·.name) ++ rest).Perm (s.nodes.map (·.name))
  built : (∃ g, build (decls N0 r0) = .ok g ∧ s.graph = some g.steps ∧ N0.map key <+: s.nodes.map key) ∨
    (∃ inv, build (decls N0 r0) = .cycle inv ∧ s.graph = none)

/-- What holds between calls. -/
structure Inv (s : St) : Prop where
  cold : s.initialized = false → s.graph = none ∧ s.gver = 0 ∧ s.firstDone = false
  warm : s.initialized = true → s.firstDone = true ∧ ∃ N0 r0, GraphFor s N0 r0

theorem initNodes_key (b : Behaviour) (s : St) : (initNodes b s).nodes.map key = s.nodes.map key := by
  simp [initNodes, key, Function.comp_def]

theorem initNodes_names (b : Behaviour) (s : St) :
    (initNodes b s).nodes.map (·.name) = s.nodes.map (·.name) := by
  simp [initNodes, Function.comp_def]

theorem initNodes_version_le (b : Behaviour) (s : St) : s.reg.version ≤ (initNodes b s).reg.version :=
  fold_version_le (fun n => b.onInit n.name) _ _

theorem initNodes_version (b : Behaviour) (s : St)
    (h : (initNodes b s).reg.version = s.reg.version) : (initNodes b s).reg = s.reg :=
  fold_version (fun n => b.onInit n.name) _ _ h

/-- A second initialisation round finds nothing left to initialise. -/
theorem initNodes_again (b : Behaviour) (s : St) (h : ∀ n ∈ s.nodes, n.inited = true) :
    initNodes b s = s := by
  have h1 : (s.nodes.filter fun n => !n.inited) = [] := by
    rw [List.filter_eq_nil_iff]; intro n hn; simp [h n hn]
  have h2 : s.nodes.map (fun n => { n with inited := true }) = s.nodes := by
    conv_rhs => rw [← List.map_id s.nodes]
    apply List.map_congr_left
    intro n hn
    have := h n hn
    cases n; simp_all
  unfold initNodes
  rw [h1, h2]; rfl

theorem GraphFor.init {s : St} {N0 : List Node} {r0 : Registry} (h : GraphFor s N0 r0) (b : Behaviour) :
    GraphFor (initNodes b s) N0 r0 where
  ver := h.ver
  le := Nat.le_trans h.le (initNodes_version_le b s)
  same := by
    intro e
    have h1 := initNodes_version_le b s
    have h2 := h.le
    rw [initNodes_version b s (by omega)]
    exact h.same (by omega)
  known := by rw [initNodes_names]; exact h.known
  built := by rw [initNodes_key]; exact h.built

theorem rebuilt (s : St) : GraphFor { rebuild s with gver := s.reg.version } s.nodes s.reg where
  ver := rfl
  le := Nat.le_refl _
  same := fun _ => rfl
  known := ⟨[], by rw [List.append_nil]; exact List.Perm.refl _⟩
  built := by
    rcases build_total (decls s.nodes s.reg) with ⟨g, hg⟩ | ⟨inv, hi⟩
    · exact Or.inl ⟨g, hg, by simp [rebuild, hg], List.prefix_refl _⟩
    · exact Or.inr ⟨inv, hi, by simp [rebuild, hi]⟩

/-- When the nodes of a call are picked, the graph was built for some prefix of the nodes; and for the
registry as it stands, if this is the first call or the graph is watching the registry. -/
theorem ready_spec {s : St} (h : Inv s) (b : Behaviour) :
    (ready b s).initialized = true ∧ ∃ N0 r0, GraphFor (ready b s) N0 r0 ∧
      (s.firstDone = false ∨ 0 < s.gver → r0 = (ready b s).reg) ∧
      (s.firstDone = false → N0.map key = s.nodes.map key) := by
  cases hi : s.initialized with
  | false =>
    obtain ⟨h1, h2, h3⟩ := h.cold hi
    have e : finalize b s = { rebuild (initNodes b s) with gver := (initNodes b s).reg.version, initialized := true } := by
      unfold finalize; rw [hi]; rfl
    have g := rebuilt (initNodes b s)
    have e2 : initNodes b (finalize b s) = finalize b s := by
      apply initNodes_again
      rw [e]
      intro n hn
      simp [rebuild, initNodes] at hn
      obtain ⟨a, _, rfl⟩ := hn
      rfl
    have e3 : ready b s = finalize b s := by
      unfold ready refresh
      rw [e2, if_neg]
      rw [e]
      simp [rebuild, initNodes, h3]
    rw [e3, e]
    refine ⟨rfl, _, _, ⟨g.ver, g.le, g.same, g.known, g.built⟩, fun _ => rfl, fun _ => initNodes_key b s⟩
  | true =>
    obtain ⟨hf, N0, r0, g⟩ := h.warm hi
    have e : finalize b s = s := by unfold finalize; rw [hi]; rfl
    have e1 : (initNodes b s).initialized = true := hi
    have e2 : (initNodes b s).firstDone = true := hf
    have e3 : (initNodes b s).gver = s.gver := rfl
    have g1 := g.init b
    unfold ready refresh
    rw [e]
    by_cases hc : (initNodes b s).firstDone = true ∧ 0 < (initNodes b s).gver ∧ (initNodes b s).reg.version ≠ (initNodes b s).gver
    · rw [if_pos hc]
      refine ⟨e1, _, _, rebuilt (initNodes b s), fun _ => rfl, ?_⟩
      rw [hf]; simp
    · rw [if_neg hc]
      refine ⟨e1, N0, r0, g1, ?_, ?_⟩
      · rintro (hh | hh)
        · rw [hf] at hh; simp at hh
        · have : (initNodes b s).reg.version = (initNodes b s).gver := by
            by_contra hne
            exact hc ⟨e2, by rw [e3]; exact hh, hne⟩
          exact (g1.same (by rw [this, g1.ver])).symm
      · rw [hf]; simp

/-- The plan of a call never indexes a missing node: it is all the nodes in a sorted order, or a
permutation of the nodes the graph was built for. -/
theorem plan_spec {s : St} {N0 : List Node} {r0 : Registry} (g : GraphFor s N0 r0) :
    ∃ nodes l, plan s = some (nodes, l) ∧ nodes.Perm s.nodes ∧
      ((s.graph = none ∧ l.Perm s.nodes) ∨
        (nodes = s.nodes ∧ s.graph.isSome ∧ l.Perm (s.nodes.take N0.length) ∧ N0.length ≤ s.nodes.length)) := by
  rcases g.built with ⟨gr, h1, h2, h3⟩ | ⟨inv, _, h2⟩
  · have hl : N0.length ≤ s.nodes.length := by simpa using h3.length_le
    have hp := steps_cover_once h1
    have hd : (decls N0 r0).length = N0.length := by simp [decls]
    rw [hd] at hp
    obtain ⟨picked, e, hperm⟩ := pick_perm s.nodes _ _ hl hp
    refine ⟨s.nodes, picked, ?_, List.Perm.refl _, Or.inr ⟨rfl, by simp [h2], hperm, hl⟩⟩
    unfold plan; rw [h2]; dsimp only; rw [e]; rfl
  · refine ⟨_, _, by unfold plan; rw [h2], List.perm_insertionSort _ _, Or.inl ⟨h2, List.perm_insertionSort _ _⟩⟩

theorem tickNodes_version_le (b : Behaviour) (r : Registry) (l : List Node) :
    r.version ≤ (tickNodes b r l).version := fold_version_le (fun n => b.onTick n.name) l r

theorem tickNodes_version (b : Behaviour) (r : Registry) (l : List Node)
    (h : (tickNodes b r l).version = r.version) : tickNodes b r l = r :=
  fold_version (fun n => b.onTick n.name) l r h

theorem tick_eq {b : Behaviour} {s : St} {nodes l : List Node} (e : plan (ready b s) = some (nodes, l)) :
    tickOnce b s = some ({ ready b s with nodes := nodes, reg := tickNodes b (ready b s).reg l, firstDone := true }, l.map (·.name)) := by
  unfold tickOnce; dsimp only; rw [e]

theorem inv_tick {s : St} (h : Inv s) (b : Behaviour) :
    ∃ s' out, tickOnce b s = some (s', out) ∧ Inv s' ∧ s'.gver = (ready b s).gver ∧
      s'.graph = (ready b s).graph ∧ s'.initialized = true ∧
      s'.nodes.length = s.nodes.length ∧ (ready b s).reg.version ≤ s'.reg.version := by
  obtain ⟨hi, N0, r0, g, _, _⟩ := ready_spec h b
  obtain ⟨nodes, l, e, hp, hl⟩ := plan_spec g
  have hlen : (ready b s).nodes.length = s.nodes.length := by
    unfold ready refresh finalize
    split_ifs <;> simp [rebuild, initNodes]
  refine ⟨_, _, tick_eq e, ⟨?_, ?_⟩, rfl, rfl, hi, ?_, tickNodes_version_le ..⟩
  · intro hc; exact absurd (hi.symm.trans hc) (by simp)
  · intro _
    refine ⟨rfl, N0, r0, g.ver, Nat.le_trans g.le (tickNodes_version_le ..), ?_, ?_, ?_⟩
    · intro hv
      have h1 := tickNodes_version_le b (ready b s).reg l
      have h2 := g.le
      have hv' : (tickNodes b (ready b s).reg l).version = r0.version := hv
      show tickNodes b (ready b s).reg l = r0
      rw [tickNodes_version b _ l (by omega)]
      exact g.same (by omega)
    · obtain ⟨rest, hr⟩ := g.known
      exact ⟨rest, hr.trans (hp.map _).symm⟩
    · rcases hl with ⟨h1, _⟩ | ⟨h1, h2, _⟩
      · rcases g.built with ⟨gr, _, h2, _⟩ | h2
        · rw [h1] at h2; simp at h2
        · exact Or.inr h2
      · subst h1; exact g.built
  · show nodes.length = _
    rw [hp.length_eq, hlen]

theorem inv_add {s : St} (h : Inv s) (n : String) (o : Nat) :
    Inv { s with nodes := s.nodes ++ [⟨n, o, false⟩] } where
  cold := h.cold
  warm := by
    intro hi
    obtain ⟨h1, N0, r0, g⟩ := h.warm hi
    refine ⟨h1, N0, r0, g.ver, g.le, g.same, ?_, ?_⟩
    · obtain ⟨rest, hr⟩ := g.known
      refine ⟨rest ++ [n], ?_⟩
      rw [← List.append_assoc, List.map_append]
      exact hr.append_right _
    · rcases g.built with ⟨gr, e1, e2, e3⟩ | hh
      · refine Or.inl ⟨gr, e1, e2, e3.trans ?_⟩
        simp only [List.map_append]
        exact List.prefix_append _ _
      · exact Or.inr hh

theorem inv_step {s : St} (h : Inv s) (e : Ev) : ∃ s' out, step s e = some (s', out) ∧ Inv s' := by
  cases e with
  | add n o => exact ⟨_, _, rfl, inv_add h n o⟩
  | tick b =>
    obtain ⟨s', out, h1, h2, _⟩ := inv_tick h b
    exact ⟨s', out, h1, h2⟩

theorem inv_run {s : St} (h : Inv s) (evs : List Ev) : ∃ s' outs, run s evs = some (s', outs) ∧ Inv s' := by
  induction evs generalizing s with
  | nil => exact ⟨s, [], rfl, h⟩
  | cons e es ih =>
    obtain ⟨s1, out, h1, h2⟩ := inv_step h e
    obtain ⟨s', outs, h3, h4⟩ := ih h2
    exact ⟨s', out :: outs, by simp [run, h1, h3], h4⟩

theorem inv_fresh (nodes : List Node) (r : Registry) : Inv (fresh nodes r) where
  cold := fun _ => ⟨rfl, rfl, rfl⟩
  warm := by intro h; simp [fresh] at h

/-- A state reached by some history of `add` and `tick_once` calls on a new scheduler, in a process
whose registry was arbitrary. -/
def Reached (s : St) : Prop :=
  ∃ nodes r evs outs, run (fresh nodes r) evs = some (s, outs)

theorem Reached.inv {s : St} (h : Reached s) : Inv s := by
  obtain ⟨nodes, r, evs, outs, h⟩ := h
  obtain ⟨s', outs', h1, h2⟩ := inv_run (inv_fresh nodes r) evs
  rw [h] at h1
  obtain ⟨rfl, _⟩ := Prod.mk.inj (Option.some.inj h1)
  exact h2

/-! ### Claims -/

theorem ready_names (b : Behaviour) (s : St) : (ready b s).nodes.map (·.name) = s.nodes.map (·.name) := by
  unfold ready refresh finalize
  split_ifs <;> simp [rebuild, initNodes, Function.comp_def]

/-- No history of `add` and `tick_once` makes the scheduler index a node that is not there, and each
call of the history is answered. -/
theorem never_panics (nodes : List Node) (r : Registry) (evs : List Ev) :
    ∃ s outs, run (fresh nodes r) evs = some (s, outs) ∧ outs.length = evs.length := by
  have : ∀ (s : St), Inv s → ∃ s' outs, run s evs = some (s', outs) ∧ outs.length = evs.length := by
    induction evs with
    | nil => intro s _; exact ⟨s, [], rfl, rfl⟩
    | cons e es ih =>
      intro s h
      obtain ⟨s1, out, h1, h2⟩ := inv_step h e
      obtain ⟨s', outs, h3, h4⟩ := ih s1 h2
      exact ⟨s', out :: outs, by simp [run, h1, h3], by simp [h4]⟩
  exact this _ (inv_fresh nodes r)

/-- All nodes known to the graph: the situation when no node was added after the first call. -/
def Covered (s : St) : Prop := ∀ steps, s.graph = some steps → steps.flatten.Perm (List.range s.nodes.length)

theorem covered_tick {s : St} (h : Inv s) (hc : Covered s) (b : Behaviour) :
    ∃ s' out, tickOnce b s = some (s', out) ∧ Inv s' ∧ Covered s' ∧
      (s'.nodes.map (·.name)).Perm (s.nodes.map (·.name)) ∧ out.Perm (s.nodes.map (·.name)) := by
  have hcr : Covered (ready b s) := by
    have built : ∀ s : St, Covered (rebuild s) := by
      intro s steps hs
      have hn : (rebuild s).nodes = s.nodes := rfl
      rw [hn]
      unfold rebuild at hs
      rcases build_total (decls s.nodes s.reg) with ⟨g, hg⟩ | ⟨inv, hi⟩
      · rw [hg] at hs
        obtain rfl := Option.some.inj hs
        have := steps_cover_once hg
        simpa [decls] using this
      · rw [hi] at hs; simp at hs
    have init : ∀ s : St, Covered s → Covered (initNodes b s) := by
      intro s hs steps he
      have := hs steps he
      simpa [initNodes] using this
    have fin : Covered (finalize b s) := by
      unfold finalize
      split_ifs
      · exact hc
      · exact built (initNodes b s)
    unfold ready refresh
    split_ifs
    · exact built (initNodes b (finalize b s))
    · exact init _ fin
  obtain ⟨hi, N0, r0, g, _, _⟩ := ready_spec h b
  obtain ⟨nodes, l, e, hp, hl⟩ := plan_spec g
  obtain ⟨s', out, ht, hinv, _⟩ := inv_tick h b
  have e2 := tick_eq e
  rw [ht] at e2
  obtain ⟨rfl, rfl⟩ := Prod.mk.inj (Option.some.inj e2)
  refine ⟨_, _, ht, hinv, ?_, ?_, ?_⟩
  · intro steps hs
    show steps.flatten.Perm (List.range nodes.length)
    rw [hp.length_eq]
    exact hcr steps hs
  · rw [← ready_names b s]; exact hp.map _
  · rw [← ready_names b s]
    rcases hl with ⟨_, h2⟩ | ⟨_, h1, h2, h3⟩
    · exact h2.map _
    · obtain ⟨steps, hs⟩ := Option.isSome_iff_exists.1 h1
      have hlen : (ready b s).nodes.length ≤ N0.length := by
        have h4 := (hcr steps hs).length_eq
        rcases g.built with ⟨gr, e1, e2, _⟩ | ⟨_, _, e2⟩
        · rw [e2] at hs
          obtain rfl := Option.some.inj hs
          have h5 := (steps_cover_once e1).length_eq
          simp [decls] at h4 h5
          omega
        · rw [e2] at hs; simp at hs
      rw [List.take_of_length_le hlen] at h2
      exact h2.map _

/-- Every node added before the first `tick_once()` is ticked exactly once by every `tick_once()`, for
every registry, every `.order()` assignment and every topic the nodes start using along the way, also
when the declared topics form a loop. -/
theorem everyone_ticks (nodes : List Node) (r : Registry) (bs : List Behaviour) :
    ∃ s outs, run (fresh nodes r) (bs.map .tick) = some (s, outs) ∧ outs.length = bs.length ∧
      ∀ out ∈ outs, out.Perm (nodes.map (·.name)) := by
  have : ∀ (s : St), Inv s → Covered s → (s.nodes.map (·.name)).Perm (nodes.map (·.name)) →
      ∃ s' outs, run s (bs.map .tick) = some (s', outs) ∧ outs.length = bs.length ∧
      ∀ out ∈ outs, out.Perm (nodes.map (·.name)) := by
    induction bs with
    | nil => intro s _ _ _; exact ⟨s, [], rfl, rfl, by simp⟩
    | cons b bs ih =>
      intro s h hc hn
      obtain ⟨s1, out, h1, h2, h3, h4, h5⟩ := covered_tick h hc b
      obtain ⟨s', outs, h6, h7, h8⟩ := ih s1 h2 h3 (h4.trans hn)
      refine ⟨s', out :: outs, by simp [run, step, h1, h6], by simp [h7], ?_⟩
      intro o ho
      rcases List.mem_cons.1 ho with rfl | ho
      · exact h5.trans hn
      · exact h8 o ho
  exact this _ (inv_fresh nodes r) (by intro steps hs; simp [fresh] at hs) (List.Perm.refl _)

theorem before_of_earlier {steps : List (List Nat)} {a b : Nat} (h : Earlier steps a b) :
    ∃ l1 l2 l3, steps.flatten = l1 ++ a :: l2 ++ b :: l3 := by
  obtain ⟨s1, s2, s3, x, y, rfl, ha, hb⟩ := h
  obtain ⟨x1, x2, rfl⟩ := List.append_of_mem ha
  obtain ⟨y1, y2, rfl⟩ := List.append_of_mem hb
  exact ⟨s1.flatten ++ x1, x2 ++ s2.flatten ++ y1, y2 ++ s3.flatten, by simp⟩

theorem prefix_name {N0 nodes : List Node} (h : N0.map key <+: nodes.map key) {i : Nat}
    (hi : i < N0.length) : (N0.getD i default).name = (nodes.getD i default).name := by
  have hl : N0.length ≤ nodes.length := by simpa using h.length_le
  have hj : i < nodes.length := by omega
  have := h.getElem (i := i) (by simpa using hi)
  simp [key] at this
  simp [hi, hj, this.1]

theorem decls_at (N0 : List Node) (r : Registry) {i : Nat} (hi : i < N0.length) :
    nodeAt (decls N0 r) i = { pubs := r.pubsOf (N0.getD i default).name, subs := r.subsOf (N0.getD i default).name, order := (N0.getD i default).order } := by
  simp [nodeAt, decls, hi]

theorem depends_iff {N0 : List Node} (r : Registry) (hn : (N0.map (·.name)).Nodup) {i j : Nat}
    (hi : i < N0.length) (hj : j < N0.length) :
    DependsOn (decls N0 r) i j ↔ Feeds r (N0.getD i default).name (N0.getD j default).name := by
  unfold DependsOn Feeds
  rw [decls_at N0 r hi, decls_at N0 r hj]
  have hl : (decls N0 r).length = N0.length := by simp [decls]
  have hne : (N0.getD i default).name ≠ (N0.getD j default).name ↔ i ≠ j := by
    have := hn.getElem_inj_iff (i := i) (j := j) (hi := by simpa using hi) (hj := by simpa using hj)
    simp at this
    simp [hi, hj, this]
  rw [hl, hne]
  constructor
  · rintro ⟨_, _, h3, t, h4, h5⟩
    exact ⟨h3, t, (mem_pubsOf r _ t).1 h4, (mem_subsOf r _ t).1 h5⟩
  · rintro ⟨h3, t, h4, h5⟩
    exact ⟨hi, hj, h3, t, (mem_pubsOf r _ t).2 h4, (mem_subsOf r _ t).2 h5⟩

theorem getD_name_mem {N0 : List Node} {i : Nat} (hi : i < N0.length) :
    (N0.getD i default).name ∈ N0.map (·.name) := by
  apply List.mem_map_of_mem
  simp [hi]

theorem no_graph_loop {N0 : List Node} {r : Registry} {inv : List Nat} {names : List String}
    (hn : (N0.map (·.name)).Nodup) (hsub : ∀ x ∈ N0.map (·.name), x ∈ names)
    (h : build (decls N0 r) = .cycle inv) : ¬ NoLoop r names := by
  intro hno
  obtain ⟨i, hi⟩ := (fails_iff_cycle _).1 ⟨inv, h⟩
  have hl : (decls N0 r).length = N0.length := by simp [decls]
  have lt : ∀ p c, DependsOn (decls N0 r) p c → p < N0.length ∧ c < N0.length := by
    intro p c hh; rw [← hl]; exact ⟨hh.1, hh.2.1⟩
  have hii : i < N0.length := by
    obtain ⟨c, h1, _⟩ := Relation.TransGen.head'_iff.1 hi
    exact (lt _ _ h1).1
  refine hno _ (hsub _ (getD_name_mem hii)) ?_
  refine Relation.TransGen.lift (fun k => (N0.getD k default).name) ?_ i i hi
  intro p c hd
  obtain ⟨h1, h2⟩ := lt _ _ hd
  exact ⟨hsub _ (getD_name_mem h1), hsub _ (getD_name_mem h2), (depends_iff r hn h1 h2).1 hd⟩

/-- In the first call, and in every later one of a scheduler that found something in the registry
when it first built its graph, a node that publishes a topic is ticked before the nodes that subscribe
it, for every topic registered by the time the call starts ticking (topics forming no loop). -/
theorem topics_respected {s s' : St} (h : Reached s) {b : Behaviour} {out : List String}
    (hw : s.firstDone = false ∨ 0 < s.gver) (ht : tickOnce b s = some (s', out))
    (hn : (s.nodes.map (·.name)).Nodup) (hno : NoLoop (ready b s).reg (s.nodes.map (·.name)))
    {p c : String} (hp : p ∈ out) (hc : c ∈ out) (hf : Feeds (ready b s).reg p c) : Before out p c := by
  obtain ⟨hi, N0, r0, g, hr, _⟩ := ready_spec h.inv b
  obtain rfl := hr hw
  obtain ⟨rest, hk⟩ := g.known
  rw [ready_names] at hk
  have hn0 : (N0.map (·.name)).Nodup := (List.nodup_append.1 (hk.nodup_iff.2 hn)).1
  have hsub : ∀ x ∈ N0.map (·.name), x ∈ s.nodes.map (·.name) := fun x hx => hk.mem_iff.1 (List.mem_append_left _ hx)
  rcases g.built with ⟨gr, h1, h2, h3⟩ | ⟨inv, h1, _⟩
  · have hcov := steps_cover_once h1
    have hl : (decls N0 (ready b s).reg).length = N0.length := by simp [decls]
    have hlen : N0.length ≤ (ready b s).nodes.length := by simpa using h3.length_le
    rw [hl] at hcov
    have hlt : ∀ i ∈ gr.steps.flatten, i < N0.length := fun i hi => List.mem_range.1 (hcov.mem_iff.1 hi)
    have e : plan (ready b s) = some ((ready b s).nodes, gr.steps.flatten.map fun i => (ready b s).nodes.getD i default) := by
      unfold plan; rw [h2]; dsimp only
      rw [pick_some _ _ fun i hi => Nat.lt_of_lt_of_le (hlt i hi) hlen]
      rfl
    have e2 := tick_eq e
    rw [ht] at e2
    obtain ⟨_, rfl⟩ := Prod.mk.inj (Option.some.inj e2)
    rw [List.map_map] at hp hc ⊢
    obtain ⟨i, hi1, rfl⟩ := List.mem_map.1 hp
    obtain ⟨j, hj1, rfl⟩ := List.mem_map.1 hc
    simp only [Function.comp_apply] at hf ⊢
    have hd : DependsOn (decls N0 (ready b s).reg) i j := by
      rw [depends_iff _ hn0 (hlt i hi1) (hlt j hj1), prefix_name h3 (hlt i hi1), prefix_name h3 (hlt j hj1)]
      exact hf
    obtain ⟨l1, l2, l3, e3⟩ := before_of_earlier (producers_first h1 hd)
    rw [e3]
    exact ⟨_, _, _, by simp only [List.map_append, List.map_cons, Function.comp_apply]; rfl⟩
  · exact absurd hno (no_graph_loop hn0 hsub h1)

/-- A node added after the first call takes part as soon as the registry has changed since the graph
was last built, provided the graph is watching the registry at all. -/
theorem late_node_joins_partial {s s' : St} (h : Reached s) {b : Behaviour} {out : List String}
    (hd : s.firstDone = true) (hw : 0 < s.gver) (hv : (initNodes b s).reg.version ≠ s.gver)
    (ht : tickOnce b s = some (s', out)) : out.Perm (s.nodes.map (·.name)) := by
  have hi : s.initialized = true := by
    by_contra hne
    have := (h.inv.cold (by simpa using hne)).2.2
    rw [hd] at this; simp at this
  have e : finalize b s = s := by unfold finalize; rw [hi]; rfl
  have er : ready b s = { rebuild (initNodes b s) with gver := (initNodes b s).reg.version } := by
    unfold ready refresh
    rw [e, if_pos]
    exact ⟨hd, hw, hv⟩
  have g := rebuilt (initNodes b s)
  rw [← er] at g
  obtain ⟨nodes, l, e1, _, hl⟩ := plan_spec g
  have e2 := tick_eq e1
  rw [ht] at e2
  obtain ⟨_, rfl⟩ := Prod.mk.inj (Option.some.inj e2)
  rw [← ready_names b s]
  have hnodes : (ready b s).nodes = (initNodes b s).nodes := by rw [er]; rfl
  rcases hl with ⟨_, h2⟩ | ⟨_, _, h2, _⟩
  · exact h2.map _
  · rw [hnodes, List.take_length] at h2
    rw [hnodes]
    exact h2.map _

theorem pick_append {nodes ids : List Node} (x : List Node) {l : List Nat} (h : pick nodes l = some ids) :
    pick (nodes ++ x) l = some ids := by
  induction l generalizing ids with
  | nil => exact h
  | cons i is ih =>
    unfold pick at h ⊢
    cases hn : nodes[i]? with
    | none => rw [hn] at h; simp at h
    | some n =>
      rw [hn] at h
      obtain ⟨ids1, h1, rfl⟩ := Option.map_eq_some_iff.1 h
      have : (nodes ++ x)[i]? = some n := by
        rw [List.getElem?_append_left]
        · exact hn
        · exact (List.getElem?_eq_some_iff.1 hn).1
      rw [this]; dsimp only; rw [ih h1]; rfl

theorem pick_map (f : Node → Node) (nodes : List Node) (l : List Nat) :
    pick (nodes.map f) l = (pick nodes l).map (List.map f) := by
  induction l with
  | nil => rfl
  | cons i is ih =>
    unfold pick
    rw [List.getElem?_map]
    cases nodes[i]? with
    | none => rfl
    | some n =>
      dsimp only [Option.map_some]
      rw [ih]
      cases pick nodes is <;> rfl

/-- The names the steps `steps` stand for. -/
def named (s : St) (steps : List (List Nat)) : Option (List String) :=
  (pick s.nodes steps.flatten).map (·.map (·.name))

theorem frozen_tick {s : St} (h : Inv s) (hi : s.initialized = true) {steps : List (List Nat)}
    (hg : s.graph = some steps) (b : Behaviour)
    (hw : s.gver = 0 ∨ (initNodes b s).reg.version = s.gver) :
    ∃ s' out, tickOnce b s = some (s', out) ∧ Inv s' ∧ s'.initialized = true ∧ s'.graph = some steps ∧
      s'.gver = s.gver ∧ named s steps = some out ∧ named s' steps = some out ∧
      s.reg.version ≤ s'.reg.version ∧ (initNodes b s).reg.version ≤ s'.reg.version := by
  have e : finalize b s = s := by unfold finalize; rw [hi]; rfl
  have er : ready b s = initNodes b s := by
    unfold ready refresh
    rw [e, if_neg]
    rintro ⟨_, h1, h2⟩
    rcases hw with h3 | h3
    · have : (initNodes b s).gver = s.gver := rfl
      omega
    · exact h2 h3
  obtain ⟨_, N0, r0, g⟩ := h.warm hi
  obtain ⟨nodes, l, e1, _⟩ := plan_spec g
  have hpick : ∃ ids, pick s.nodes steps.flatten = some ids := by
    unfold plan at e1
    rw [hg] at e1
    obtain ⟨ids, e2, _⟩ := Option.map_eq_some_iff.1 e1
    exact ⟨ids, e2⟩
  obtain ⟨ids, hids⟩ := hpick
  have hp2 : pick (initNodes b s).nodes steps.flatten = some (ids.map fun n => { n with inited := true }) := by
    have := pick_map (fun n => { n with inited := true }) s.nodes steps.flatten
    rw [hids] at this
    exact this
  have e2 : plan (ready b s) = some ((initNodes b s).nodes, ids.map fun n => { n with inited := true }) := by
    unfold plan
    rw [er]
    have : (initNodes b s).graph = some steps := hg
    rw [this]; dsimp only; rw [hp2]; rfl
  have e3 := tick_eq e2
  obtain ⟨s', out, ht, hinv, k1, k2, k3, _, k5⟩ := inv_tick h b
  rw [ht] at e3
  obtain ⟨rfl, rfl⟩ := Prod.mk.inj (Option.some.inj e3)
  have hv : (initNodes b s).reg.version ≤ (ready b s).reg.version := by rw [er]
  refine ⟨_, _, ht, hinv, k3, ?_, ?_, ?_, ?_, ?_, ?_⟩
  · rw [k2, er]; exact hg
  · rw [k1, er]; rfl
  · unfold named; rw [hids]; simp [Function.comp_def]
  · unfold named
    show (pick (initNodes b s).nodes steps.flatten).map _ = _
    rw [hp2]; rfl
  · exact Nat.le_trans (Nat.le_trans (initNodes_version_le b s) hv) k5
  · exact Nat.le_trans hv k5

theorem run_version_le (evs : List Ev) {s s' : St} {outs : List (List String)} (h : Inv s)
    (hr : run s evs = some (s', outs)) : s.reg.version ≤ s'.reg.version := by
  induction evs generalizing s outs with
  | nil => simp [run] at hr; rw [hr.1]
  | cons e es ih =>
    obtain ⟨s1, out, h1, h2⟩ := inv_step h e
    simp only [run, h1] at hr
    obtain ⟨⟨s2, outs2⟩, h3, h4⟩ := Option.map_eq_some_iff.1 hr
    simp at h4
    obtain ⟨rfl, _⟩ := h4
    refine Nat.le_trans ?_ (ih h2 h3)
    cases e with
    | add n o => simp [step] at h1; rw [← h1.1]
    | tick b =>
      obtain ⟨s4, out4, k1, _, _, _, _, _, k2⟩ := inv_tick h b
      simp only [step] at h1
      rw [h1] at k1
      obtain ⟨rfl, _⟩ := Prod.mk.inj (Option.some.inj k1)
      refine Nat.le_trans ?_ k2
      have m1 : s.reg.version ≤ (finalize b s).reg.version := by
        unfold finalize
        split_ifs
        · exact Nat.le_refl _
        · exact initNodes_version_le b s
      have m2 : (ready b s).reg.version = (initNodes b (finalize b s)).reg.version := by
        unfold ready refresh
        split_ifs <;> rfl
      rw [m2]
      exact Nat.le_trans m1 (initNodes_version_le b _)

/-- While the graph is not rebuilt, every call ticks exactly the nodes it was built for, in the same
order, whatever is added or registered in between. -/
theorem frozen (evs : List Ev) {s s' : St} {outs : List (List String)} (h : Inv s) (hi : s.initialized = true)
    {steps : List (List Nat)} (hg : s.graph = some steps)
    (hw : s.gver = 0 ∨ (s.gver = s.reg.version ∧ s'.reg.version = s.reg.version))
    (hr : run s evs = some (s', outs)) :
    ∃ names, named s steps = some names ∧ s'.graph = some steps ∧ named s' steps = some names ∧
      outs = evs.map fun e => match e with | .add _ _ => [] | .tick _ => names := by
  induction evs generalizing s outs with
  | nil =>
    simp [run] at hr
    obtain ⟨rfl, rfl⟩ := hr
    obtain ⟨_, N0, r0, g⟩ := h.warm hi
    obtain ⟨nodes, l, e1, _⟩ := plan_spec g
    unfold plan at e1
    rw [hg] at e1
    obtain ⟨ids, e2, _⟩ := Option.map_eq_some_iff.1 e1
    exact ⟨ids.map (·.name), by simp [named, e2], hg, by simp [named, e2], rfl⟩
  | cons e es ih =>
    cases e with
    | add n o =>
      simp only [run, step] at hr
      obtain ⟨⟨s2, outs2⟩, h3, h4⟩ := Option.map_eq_some_iff.1 hr
      simp at h4
      obtain ⟨rfl, rfl⟩ := h4
      obtain ⟨names, h1, h2, h5, h6⟩ := ih (inv_add h n o) hi hg hw h3
      refine ⟨names, ?_, h2, h5, by simp [h6]⟩
      obtain ⟨_, N0, r0, g⟩ := h.warm hi
      obtain ⟨nodes, l, e1, _⟩ := plan_spec g
      unfold plan at e1
      rw [hg] at e1
      obtain ⟨ids, e2, _⟩ := Option.map_eq_some_iff.1 e1
      have := pick_append [⟨n, o, false⟩] e2
      unfold named at h1 ⊢
      rw [this] at h1
      rw [e2]; exact h1
    | tick b =>
      have hmono := run_version_le _ h hr
      obtain ⟨s1, out, k1, k2⟩ := inv_step h (.tick b)
      simp only [run, k1] at hr
      obtain ⟨⟨s2, outs2⟩, h3, h4⟩ := Option.map_eq_some_iff.1 hr
      simp at h4
      obtain ⟨rfl, rfl⟩ := h4
      have hm1 := run_version_le _ k2 h3
      obtain ⟨s4, out4, j1, _, _, _, _, _, j2⟩ := inv_tick h b
      simp only [step] at k1
      rw [k1] at j1
      obtain ⟨rfl, rfl⟩ := Prod.mk.inj (Option.some.inj j1)
      have e : finalize b s = s := by unfold finalize; rw [hi]; rfl
      have m2 : (ready b s).reg.version = (initNodes b s).reg.version := by
        unfold ready refresh
        rw [e]
        split_ifs <;> rfl
      have m3 := initNodes_version_le b s
      obtain ⟨s5, out5, l1, l2, l3, l4, l5, l6, l7, l8, _⟩ := frozen_tick h hi hg b (by rcases hw with hw | ⟨hw, hw2⟩ <;> omega)
      rw [k1] at l1
      obtain ⟨rfl, rfl⟩ := Prod.mk.inj (Option.some.inj l1)
      obtain ⟨names, n1, n2, n3, n4⟩ := ih l2 l3 l4 (by rcases hw with hw | ⟨hw, hw2⟩ <;> omega) h3
      rw [l7] at n1
      obtain rfl := Option.some.inj n1
      exact ⟨_, l6, n2, n3, by simp [n4]⟩

/-- What the last call ticked is what the stored graph names. -/
theorem last_tick {s s' : St} (h : Inv s) {b : Behaviour} {out : List String}
    (ht : tickOnce b s = some (s', out)) {steps : List (List Nat)} (hg : s'.graph = some steps) :
    named s' steps = some out := by
  obtain ⟨_, N0, r0, g, _, _⟩ := ready_spec h b
  obtain ⟨nodes, l, e, hp, hl⟩ := plan_spec g
  have e2 := tick_eq e
  rw [ht] at e2
  obtain ⟨rfl, rfl⟩ := Prod.mk.inj (Option.some.inj e2)
  have hg' : (ready b s).graph = some steps := hg
  rcases hl with ⟨h1, _⟩ | ⟨h1, _⟩
  · rw [hg'] at h1; simp at h1
  · subst h1
    unfold plan at e
    rw [hg'] at e
    obtain ⟨ids, e1, e2⟩ := Option.map_eq_some_iff.1 e
    obtain ⟨_, rfl⟩ := Prod.mk.inj e2
    show (pick (ready b s).nodes steps.flatten).map _ = _
    rw [e1]; rfl

/-- The code's gap for late nodes: once a call has been made in which the topics formed no loop, a
scheduler whose first graph was built from an empty registry, or in which nothing new is registered
any more, keeps ticking exactly the nodes of that call in that order, for ever, whatever is added. -/
theorem late_node_ignored {s s1 s' : St} (h : Reached s) {b : Behaviour} {out : List String}
    (ht : tickOnce b s = some (s1, out)) (hno : NoLoop (ready b s).reg (s.nodes.map (·.name)))
    (hn : (s.nodes.map (·.name)).Nodup) (hc : s.firstDone = false ∨ 0 < s.gver)
    (evs : List Ev) {outs : List (List String)} (hr : run s1 evs = some (s', outs))
    (hw : s1.gver = 0 ∨ (s1.gver = s1.reg.version ∧ s'.reg.version = s1.reg.version)) :
    outs = evs.map fun e => match e with | .add _ _ => [] | .tick _ => out := by
  obtain ⟨hi, N0, r0, g, hr0, _⟩ := ready_spec h.inv b
  obtain rfl := hr0 hc
  obtain ⟨s2, out2, k1, k2, k3, k4, k5, _⟩ := inv_tick h.inv b
  rw [ht] at k1
  obtain ⟨rfl, rfl⟩ := Prod.mk.inj (Option.some.inj k1)
  rcases g.built with ⟨gr, h1, h2, h3⟩ | ⟨inv, h1, h2⟩
  · rw [h2] at k4
    obtain ⟨names, m1, _, _, m2⟩ := frozen evs k2 k5 k4 hw hr
    rw [last_tick h.inv ht k4] at m1
    obtain rfl := Option.some.inj m1
    exact m2
  · obtain ⟨rest, hk⟩ := g.known
    rw [ready_names] at hk
    have hn0 : (N0.map (·.name)).Nodup := (List.nodup_append.1 (hk.nodup_iff.2 hn)).1
    have hsub : ∀ x ∈ N0.map (·.name), x ∈ s.nodes.map (·.name) := fun x hx => hk.mem_iff.1 (List.mem_append_left _ hx)
    exact absurd hno (no_graph_loop hn0 hsub h1)

/-- The code's gap for topics first used inside `tick()`: when the registry is empty while the first
graph is built, the order of ticking is fixed for ever by the `.order()` values (and ties by the order
of adding) of the nodes then present; no topic any node uses later, in any call, has any influence. -/
theorem topics_in_tick_ignored (nodes : List Node) (hn : (nodes.map (·.name)).Nodup) :
    ∃ names : List String, names.Perm (nodes.map (·.name)) ∧
      (∀ a ∈ nodes, ∀ c ∈ nodes, a.order < c.order → Before names a.name c.name) ∧
      ∀ (b0 : Behaviour) (evs : List Ev), (∀ n ∈ nodes, b0.onInit n.name = []) →
        ∃ s, run (fresh nodes ⟨[], 0⟩) (.tick b0 :: evs) =
          some (s, names :: evs.map fun e => match e with | .add _ _ => [] | .tick _ => names) := by
  have hmeta : ∀ l : List Node, hasMetadata (decls l ⟨[], 0⟩) = false := by
    intro l; simp [hasMetadata, decls, Registry.pubsOf, Registry.subsOf]
  obtain ⟨g, hg⟩ : ∃ g, build (decls nodes ⟨[], 0⟩) = .ok g := by
    rcases build_total (decls nodes ⟨[], 0⟩) with h | ⟨inv, h⟩
    · exact h
    · exfalso
      obtain ⟨i, hi⟩ := (fails_iff_cycle _).1 ⟨inv, h⟩
      obtain ⟨c, h1, _⟩ := Relation.TransGen.head'_iff.1 hi
      have := (hasMetadata_of_dep h1).1
      rw [hmeta] at this; simp at this
  have hft : g.fromTopics = false := by
    have := (topics_used_iff hg)
    by_contra hne
    have h1 : g.fromTopics = true := by simpa using hne
    obtain ⟨i, hi, h2⟩ := this.1 h1
    obtain ⟨n, _, rfl⟩ := List.mem_map.1 hi
    simp [Registry.pubsOf, Registry.subsOf] at h2
  have hcov := steps_cover_once hg
  have hl : (decls nodes ⟨[], 0⟩).length = nodes.length := by simp [decls]
  rw [hl] at hcov
  have hlt : ∀ i ∈ g.steps.flatten, i < nodes.length := fun i hi => List.mem_range.1 (hcov.mem_iff.1 hi)
  refine ⟨(g.steps.flatten.map fun i => nodes.getD i default).map (·.name), ?_, ?_, ?_⟩
  · have := (hcov.map fun i => nodes.getD i default).map (·.name)
    rwa [map_range_getD nodes _ (Nat.le_refl _), List.take_length] at this
  · intro a ha c hc hlo
    obtain ⟨i, hi, rfl⟩ := List.getElem_of_mem ha
    obtain ⟨j, hj, rfl⟩ := List.getElem_of_mem hc
    have hord := (order_tiers hg hft (a := i) (b := j) (by omega) (by omega)).1
    rw [decls_at nodes _ hi, decls_at nodes _ hj] at hord
    have e := hord.1 (by simpa [hi, hj] using hlo)
    obtain ⟨l1, l2, l3, e3⟩ := before_of_earlier e
    rw [e3]
    refine ⟨(l1.map fun i => nodes.getD i default).map (·.name), (l2.map fun i => nodes.getD i default).map (·.name), (l3.map fun i => nodes.getD i default).map (·.name), ?_⟩
    simp [hi, hj]
  · intro b0 evs hb
    have hfold : ∀ (l : List Node) (r : Registry), (∀ n ∈ l, b0.onInit n.name = []) →
        l.foldl (fun r n => r.registerAll n.name (b0.onInit n.name)) r = r := by
      intro l
      induction l with
      | nil => intro r _; rfl
      | cons x xs ih =>
        intro r hx
        simp only [List.foldl_cons]
        rw [hx x (List.mem_cons_self ..)]
        exact ih _ fun n hn => hx n (List.mem_cons_of_mem _ hn)
    have hreg : (initNodes b0 (fresh nodes ⟨[], 0⟩)).reg = ⟨[], 0⟩ :=
      hfold _ _ fun n hn => hb n (List.mem_of_mem_filter hn)
    have hkey : (initNodes b0 (fresh nodes ⟨[], 0⟩)).nodes.map key = nodes.map key := initNodes_key b0 _
    have hbuild : build (decls (initNodes b0 (fresh nodes ⟨[], 0⟩)).nodes (initNodes b0 (fresh nodes ⟨[], 0⟩)).reg) = .ok g := by
      rw [hreg, decls_key _ hkey]; exact hg
    have efin : finalize b0 (fresh nodes ⟨[], 0⟩) = { rebuild (initNodes b0 (fresh nodes ⟨[], 0⟩)) with gver := 0, initialized := true } := by
      have : (fresh nodes ⟨[], 0⟩).initialized = false := rfl
      unfold finalize; rw [this]
      show ({ rebuild (initNodes b0 (fresh nodes ⟨[], 0⟩)) with gver := (initNodes b0 (fresh nodes ⟨[], 0⟩)).reg.version, initialized := true } : St) = _
      rw [hreg]
    have eini : initNodes b0 (finalize b0 (fresh nodes ⟨[], 0⟩)) = finalize b0 (fresh nodes ⟨[], 0⟩) := by
      apply initNodes_again
      rw [efin]
      intro n hn
      simp [rebuild, initNodes] at hn
      obtain ⟨a, _, rfl⟩ := hn
      rfl
    have eready : ready b0 (fresh nodes ⟨[], 0⟩) = { rebuild (initNodes b0 (fresh nodes ⟨[], 0⟩)) with gver := 0, initialized := true } := by
      unfold ready refresh
      rw [eini, if_neg, efin]
      rw [efin]; simp
    have hgr : (ready b0 (fresh nodes ⟨[], 0⟩)).graph = some g.steps := by
      rw [eready]; simp [rebuild, hbuild]
    have hgv : (ready b0 (fresh nodes ⟨[], 0⟩)).gver = 0 := by rw [eready]
    obtain ⟨s1, out, k1, k2, k3, k4, k5, _⟩ := inv_tick (inv_fresh nodes ⟨[], 0⟩) b0
    rw [hgr] at k4
    rw [hgv] at k3
    obtain ⟨s', outs, hr, _⟩ := inv_run k2 evs
    obtain ⟨names, m1, _, _, m2⟩ := frozen evs k2 k5 k4 (Or.inl k3) hr
    rw [last_tick (inv_fresh nodes _) k1 k4] at m1
    obtain rfl := Option.some.inj m1
    have hout : out = (g.steps.flatten.map fun i => nodes.getD i default).map (·.name) := by
      have hnodes : (ready b0 (fresh nodes ⟨[], 0⟩)).nodes = nodes.map fun n => { n with inited := true } := by
        rw [eready]; rfl
      have e : plan (ready b0 (fresh nodes ⟨[], 0⟩)) = some ((ready b0 (fresh nodes ⟨[], 0⟩)).nodes, (g.steps.flatten.map fun i => nodes.getD i default).map fun n => { n with inited := true }) := by
        unfold plan; rw [hgr]; dsimp only
        rw [hnodes, pick_map, pick_some _ _ hlt]; rfl
      have e2 := tick_eq e
      rw [k1] at e2
      have := (Prod.mk.inj (Option.some.inj e2)).2
      rw [this]; simp [Function.comp_def]
    refine ⟨s', ?_⟩
    simp only [run, step, k1, hr, m2, ← hout]
    rfl

theorem register_pos (r : Registry) (hr : r.version = 0 → r.entries = []) (t n : String) (role : Role) :
    0 < (r.register t n role).version := by
  by_cases h : r.version = 0
  · have he := hr h
    unfold Registry.register
    rw [he]; simp [upgradeFirst]
  · have := register_version_le r t n role; omega

theorem fold_pos (f : Node → List (String × Role)) (l : List Node) (r : Registry)
    (hr : r.version = 0 → r.entries = []) :
    0 < (l.foldl (fun r n => r.registerAll n.name (f n)) r).version ↔ 0 < r.version ∨ ∃ n ∈ l, f n ≠ [] := by
  induction l generalizing r with
  | nil => simp
  | cons x xs ih =>
    simp only [List.foldl_cons]
    cases hx : f x with
    | nil =>
      have : r.registerAll x.name [] = r := rfl
      rw [this, ih r hr]
      simp [hx]
    | cons y ys =>
      have h1 : 0 < (r.registerAll x.name (y :: ys)).version :=
        Nat.lt_of_lt_of_le (register_pos r hr y.1 x.name y.2) (registerAll_version_le ys x.name _)
      rw [ih _ (by intro h0; omega)]
      simp [h1, hx]

/-- When the graph watches the registry: exactly when something was registered in the process before
the first call, or some node uses a topic in its `init()`. -/
theorem watching_iff (nodes : List Node) (r : Registry) (hr : r.version = 0 → r.entries = [])
    (b : Behaviour) {s' : St} {out : List String} (hi : ∀ n ∈ nodes, n.inited = false)
    (ht : tickOnce b (fresh nodes r) = some (s', out)) :
    0 < s'.gver ↔ 0 < r.version ∨ ∃ n ∈ nodes, b.onInit n.name ≠ [] := by
  obtain ⟨s2, out2, k1, _, k3, _⟩ := inv_tick (inv_fresh nodes r) b
  rw [ht] at k1
  obtain ⟨rfl, rfl⟩ := Prod.mk.inj (Option.some.inj k1)
  obtain ⟨_, N0, r0, g, hr0, _⟩ := ready_spec (inv_fresh nodes r) b
  have e := hr0 (Or.inl rfl)
  rw [k3, g.ver, e]
  have hreg : (ready b (fresh nodes r)).reg = (initNodes b (fresh nodes r)).reg := by
    have efin : finalize b (fresh nodes r) = { rebuild (initNodes b (fresh nodes r)) with gver := (initNodes b (fresh nodes r)).reg.version, initialized := true } := by
      have : (fresh nodes r).initialized = false := rfl
      unfold finalize; rw [this]; rfl
    have eini : initNodes b (finalize b (fresh nodes r)) = finalize b (fresh nodes r) := by
      apply initNodes_again
      rw [efin]
      intro n hn
      simp [rebuild, initNodes] at hn
      obtain ⟨a, _, rfl⟩ := hn
      rfl
    unfold ready refresh
    rw [eini, efin]
    split_ifs <;> rfl
  rw [hreg]
  have hf : ((fresh nodes r).nodes.filter fun n => !n.inited) = nodes := by
    show nodes.filter _ = nodes
    rw [List.filter_eq_self]; intro n hn; simp [hi n hn]
  show 0 < (((fresh nodes r).nodes.filter fun n => !n.inited).foldl (fun r n => r.registerAll n.name (b.onInit n.name)) r).version ↔ _
  rw [hf]
  exact fold_pos (fun n => b.onInit n.name) nodes r hr

/-- When the topics form a loop and no graph exists, the call ticks by `.order()` value. -/
theorem loop_by_order {s s' : St} (h : Reached s) {b : Behaviour} {out : List String}
    (ht : tickOnce b s = some (s', out)) (hg : s'.graph = none) :
    out = s'.nodes.map (·.name) ∧ s'.nodes.Pairwise (fun a c => a.order ≤ c.order) ∧
      (s'.nodes.map key).Perm (s.nodes.map key) := by
  obtain ⟨_, N0, r0, g, _, _⟩ := ready_spec h.inv b
  obtain ⟨nodes, l, e, hp, hl⟩ := plan_spec g
  have e2 := tick_eq e
  rw [ht] at e2
  obtain ⟨rfl, rfl⟩ := Prod.mk.inj (Option.some.inj e2)
  have hg' : (ready b s).graph = none := hg
  unfold plan at e
  rw [hg'] at e
  obtain ⟨rfl, rfl⟩ := Prod.mk.inj (Option.some.inj e)
  refine ⟨rfl, ?_, ?_⟩
  · have : IsTrans Node (fun a c => a.order ≤ c.order) := ⟨fun _ _ _ => Nat.le_trans⟩
    have : Std.Total (fun a c : Node => a.order ≤ c.order) := ⟨fun a c => Nat.le_total _ _⟩
    exact List.pairwise_insertionSort (fun a c : Node => a.order ≤ c.order) (ready b s).nodes
  · have hk : (ready b s).nodes.map key = s.nodes.map key := by
      unfold ready refresh finalize
      split_ifs <;> simp [rebuild, initNodes, Function.comp_def, key]
    rw [← hk]
    exact hp.map key

/-- A sensor and a controller that use their topic inside `tick()`, the controller added first: the
controller reads before the sensor writes in every one of any number of calls. -/
theorem consumer_before_producer_for_ever (k : Nat) :
    let b : Behaviour := { onInit := fun _ => [], onTick := fun n => if n = "lidar" then [("scan", .pub)] else [("scan", .sub)] }
    ∃ s, run (fresh [⟨"control", 100, false⟩, ⟨"lidar", 100, false⟩] ⟨[], 0⟩) (List.replicate (k + 1) (.tick b)) =
        some (s, List.replicate (k + 1) ["control", "lidar"]) ∧ Feeds s.reg "lidar" "control" := by
  intro b
  have h1 : ∃ s, tickOnce b (fresh [⟨"control", 100, false⟩, ⟨"lidar", 100, false⟩] ⟨[], 0⟩) = some (s, ["control", "lidar"]) ∧
      tickOnce b s = some (s, ["control", "lidar"]) ∧
      s.reg.entries = [⟨"scan", "control", .sub⟩, ⟨"scan", "lidar", .pub⟩] := by
    exact ⟨_, rfl, rfl, rfl⟩
  obtain ⟨s, e1, e2, e3⟩ := h1
  have h2 : ∀ k, run s (List.replicate k (.tick b)) = some (s, List.replicate k ["control", "lidar"]) := by
    intro k
    induction k with
    | zero => rfl
    | succ k ih => simp [List.replicate_succ, run, step, e2, ih]
  refine ⟨s, by simp [List.replicate_succ, run, step, e1, h2], by decide, "scan", ?_, ?_⟩
  · exact ⟨⟨"scan", "lidar", .pub⟩, by rw [e3]; simp, rfl, rfl, Or.inl rfl⟩
  · exact ⟨⟨"scan", "control", .sub⟩, by rw [e3]; simp, rfl, rfl, Or.inl rfl⟩

/-- The same two nodes declaring their topic in `init()`: the sensor comes first. Its declarations and
names meet the hypotheses of `topics_respected`. -/
example :
    let b : Behaviour := { onInit := fun n => if n = "lidar" then [("scan", .pub)] else [("scan", .sub)], onTick := fun _ => [] }
    let s := fresh [⟨"control", 100, false⟩, ⟨"lidar", 100, false⟩] ⟨[], 0⟩
    Reached s ∧ s.firstDone = false ∧ (∃ s', tickOnce b s = some (s', ["lidar", "control"])) ∧
      Feeds (ready b s).reg "lidar" "control" := by
  refine ⟨⟨_, _, [], [], rfl⟩, rfl, ⟨_, rfl⟩, by decide, "scan", ?_, ?_⟩
  · exact ⟨⟨"scan", "lidar", .pub⟩, by decide, rfl, rfl, Or.inl rfl⟩
  · exact ⟨⟨"scan", "control", .sub⟩, by decide, rfl, rfl, Or.inl rfl⟩

/-- A logger added after the first call, to a scheduler whose nodes declared their topics: it is
initialised and never ticked. -/
example :
    let b : Behaviour := { onInit := fun n => if n = "lidar" then [("scan", .pub)] else [], onTick := fun _ => [] }
    ∃ s, run (fresh [⟨"lidar", 100, false⟩] ⟨[], 0⟩) [.tick b, .add "logger" 100, .tick b, .tick b] =
        some (s, [["lidar"], [], ["lidar"], ["lidar"]]) ∧ s.nodes = [⟨"lidar", 100, true⟩, ⟨"logger", 100, true⟩] :=
  ⟨_, rfl, rfl⟩

/-- If the logger also uses a topic nobody used before, it joins with the next call. -/
example :
    let b : Behaviour := { onInit := fun n => if n = "lidar" then [("scan", .pub)] else [("log", .pub)], onTick := fun _ => [] }
    ∃ s, run (fresh [⟨"lidar", 100, false⟩] ⟨[], 0⟩) [.tick b, .add "logger" 100, .tick b] =
        some (s, [["lidar"], [], ["lidar", "logger"]]) := ⟨_, rfl⟩

/-- Two nodes feeding each other: no graph, both still tick. -/
example :
    let b : Behaviour := { onInit := fun n => if n = "a" then [("x", .pub), ("y", .sub)] else [("x", .sub), ("y", .pub)], onTick := fun _ => [] }
    (run (fresh [⟨"a", 7, false⟩, ⟨"b", 3, false⟩] ⟨[], 0⟩) [.tick b, .tick b]).map (fun x => (x.1.graph, x.2)) =
      some (none, [["b", "a"], ["b", "a"]]) := by decide +kernel

end Horus.Sched.Late
