/-!
# C++ nodes: typed topics of a `LambdaNode`, and when its callbacks run

`horus_cpp/include/horus/node.hpp` and `impl/scheduler_impl.hpp`.  A `LambdaNode` declares topics with
`pub<T>`/`sub<T>` and later sends and receives by topic name with a type given again at the call.  A
`Node` subclass gets typed pointers instead.  Message types are numbers; a topic is a text.
-/

namespace Horus.Lambda

/-- A declared publisher or subscriber: the type it was declared with (node.hpp:117, 125: the map value
is a `shared_ptr<void>`, so the type is not kept at run time). -/
structure Entry where
  topic : String
  type : Nat
  deriving DecidableEq, Repr

/-- `LambdaNode`'s maps and name lists (node.hpp:190-193); newest declaration first in the maps. -/
structure Node where
  pubs : List Entry
  subs : List Entry
  pubNames : List String
  subNames : List String
  deriving DecidableEq, Repr

def Node.new : Node := ⟨[], [], [], []⟩

inductive Decl
  | pub (type : Nat) (topic : String)
  | sub (type : Nat) (topic : String)
  deriving DecidableEq, Repr

/-- `typed_pubs_[topic] = p` replaces (node.hpp:118, 126). -/
def put (l : List Entry) (e : Entry) : List Entry := e :: l.filter fun x => x.topic ≠ e.topic

/-- `pub`/`sub` (node.hpp:115-129). -/
def declare (n : Node) : Decl → Node
  | .pub t s => { n with pubs := put n.pubs ⟨s, t⟩, pubNames := n.pubNames ++ [s] }
  | .sub t s => { n with subs := put n.subs ⟨s, t⟩, subNames := n.subNames ++ [s] }

/-- Declaring in order. -/
def declareAll (ds : List Decl) : Node := ds.foldl declare .new

def look (l : List Entry) (s : String) : Option Entry := l.find? fun x => x.topic = s

/-- What a call by name does: reach the publisher or subscriber as declared, nothing, or treat an
object of one type as one of another (undefined behaviour). -/
inductive Outcome
  | reached (topic : String) (type : Nat)
  | nothing
  | confused (declared used : Nat)
  deriving DecidableEq, Repr

/-- `static_pointer_cast<Publisher<T>>` after `find` (node.hpp:144-151, 154-162, 165-173): no check of the type. -/
def cast (l : List Entry) (t : Nat) (s : String) : Outcome :=
  match look l s with
  | none => .nothing
  | some e => if e.type = t then .reached s t else .confused e.type t

def send (n : Node) (t : Nat) (s : String) : Outcome := cast n.pubs t s
def recv (n : Node) (t : Nat) (s : String) : Outcome := cast n.subs t s

/-! ## Specification: the last declaration of a topic -/

def lastPub (ds : List Decl) (s : String) : Option Nat := (ds.filterMap fun d => match d with | .pub t x => if x = s then some t else none | _ => none).getLast?
def lastSub (ds : List Decl) (s : String) : Option Nat := (ds.filterMap fun d => match d with | .sub t x => if x = s then some t else none | _ => none).getLast?

theorem look_put (l : List Entry) (e : Entry) (s : String) : look (put l e) s = if e.topic = s then some e else look l s := by
  simp only [look, put, List.find?_cons]
  by_cases h : e.topic = s
  · simp [h]
  · simp only [h, decide_false, if_false]
    rw [List.find?_filter]
    congr 1
    funext x
    by_cases hx : x.topic = s
    · simp [hx, Ne.symm h]
    · simp [hx]

theorem pubs_last (ds : List Decl) : ∀ (n : Node) (s : String), (look (ds.foldl declare n).pubs s).map (·.type) = (lastPub ds s).or ((look n.pubs s).map (·.type)) := by
  induction ds with
  | nil => intro n s; simp [lastPub]
  | cons d ds ih =>
    intro n s
    rw [List.foldl_cons, ih]
    cases d with
    | pub t x =>
      simp only [declare, look_put, lastPub, List.filterMap_cons]
      by_cases hx : x = s
      · simp only [hx, if_true, List.getLast?_cons]
        cases (ds.filterMap fun d => match d with | .pub t x => if x = s then some t else none | _ => none).getLast? <;> rfl
      · simp [hx]
    | sub t x => rfl

theorem subs_last (ds : List Decl) : ∀ (n : Node) (s : String), (look (ds.foldl declare n).subs s).map (·.type) = (lastSub ds s).or ((look n.subs s).map (·.type)) := by
  induction ds with
  | nil => intro n s; simp [lastSub]
  | cons d ds ih =>
    intro n s
    rw [List.foldl_cons, ih]
    cases d with
    | sub t x =>
      simp only [declare, look_put, lastSub, List.filterMap_cons]
      by_cases hx : x = s
      · simp only [hx, if_true, List.getLast?_cons]
        cases (ds.filterMap fun d => match d with | .sub t x => if x = s then some t else none | _ => none).getLast? <;> rfl
      · simp [hx]
    | pub t x => rfl

theorem cast_of (l : List Entry) (t : Nat) (s : String) (o : Option Nat) : (look l s).map (·.type) = o → cast l t s = match o with | none => .nothing | some d => if d = t then .reached s t else .confused d t := by
  rintro rfl
  unfold cast
  cases look l s <;> rfl

/-- **C255.** What `send<T>(topic)` does, for every sequence of declarations: it reaches the topic's
publisher when `T` is the type of the last `pub` for that topic, does nothing when there is none, and
otherwise uses the publisher as one of the wrong type. -/
theorem send_exact (ds : List Decl) (t : Nat) (s : String) : send (declareAll ds) t s = match lastPub ds s with | none => .nothing | some d => if d = t then .reached s t else .confused d t := by
  apply cast_of
  rw [declareAll, pubs_last]; simp [Node.new, look]

/-- **C255.** The same for `recv<T>` and `has_msg<T>`; publishers and subscribers do not mix. -/
theorem recv_exact (ds : List Decl) (t : Nat) (s : String) : recv (declareAll ds) t s = match lastSub ds s with | none => .nothing | some d => if d = t then .reached s t else .confused d t := by
  apply cast_of
  rw [declareAll, subs_last]; simp [Node.new, look]

/-- A program uses each topic with the one type it declares it with. -/
def Consistent (ds : List Decl) (ty : String → Nat) : Prop := ∀ d ∈ ds, match d with | .pub t s => t = ty s | .sub t s => t = ty s

theorem lastPub_mem (ds : List Decl) (s : String) (t : Nat) (h : lastPub ds s = some t) : Decl.pub t s ∈ ds := by
  have := List.mem_of_getLast? h
  rw [List.mem_filterMap] at this
  obtain ⟨d, hd, he⟩ := this
  cases d with
  | pub t' x =>
    simp only at he
    split at he
    · rename_i hx; injection he with he; subst he; subst hx; exact hd
    · simp at he
  | sub t' x => simp at he

theorem lastSub_mem (ds : List Decl) (s : String) (t : Nat) (h : lastSub ds s = some t) : Decl.sub t s ∈ ds := by
  have := List.mem_of_getLast? h
  rw [List.mem_filterMap] at this
  obtain ⟨d, hd, he⟩ := this
  cases d with
  | sub t' x =>
    simp only at he
    split at he
    · rename_i hx; injection he with he; subst he; subst hx; exact hd
    · simp at he
  | pub t' x => simp at he

/-- **C255.** With one type per topic nothing is ever confused: a call reaches the topic, or does
nothing because the topic was not declared. -/
theorem consistent_safe_partial (ds : List Decl) (ty : String → Nat) (h : Consistent ds ty) (s : String) : (send (declareAll ds) (ty s) s = .reached s (ty s) ∨ (send (declareAll ds) (ty s) s = .nothing ∧ ∀ t, Decl.pub t s ∉ ds)) ∧ (recv (declareAll ds) (ty s) s = .reached s (ty s) ∨ (recv (declareAll ds) (ty s) s = .nothing ∧ ∀ t, Decl.sub t s ∉ ds)) := by
  rw [send_exact, recv_exact]
  constructor
  · cases hl : lastPub ds s with
    | none =>
      right
      refine ⟨rfl, fun t ht => ?_⟩
      have h2 : t ∈ (ds.filterMap fun d => match d with | .pub t x => if x = s then some t else none | _ => none) := List.mem_filterMap.mpr ⟨_, ht, by simp⟩
      rw [lastPub, List.getLast?_eq_none_iff] at hl
      rw [hl] at h2; cases h2
    | some d =>
      left
      have := h _ (lastPub_mem ds s d hl)
      simp only at this
      simp [this]
  · cases hl : lastSub ds s with
    | none =>
      right
      refine ⟨rfl, fun t ht => ?_⟩
      have h2 : t ∈ (ds.filterMap fun d => match d with | .sub t x => if x = s then some t else none | _ => none) := List.mem_filterMap.mpr ⟨_, ht, by simp⟩
      rw [lastSub, List.getLast?_eq_none_iff] at hl
      rw [hl] at h2; cases h2
    | some d =>
      left
      have := h _ (lastSub_mem ds s d hl)
      simp only at this
      simp [this]

/-- **C255.** The names a node lists are exactly the topics it declared, in order, a topic declared
twice twice. -/
theorem names_listed (ds : List Decl) : (declareAll ds).pubNames = ds.filterMap (fun d => match d with | .pub _ s => some s | _ => none) ∧ (declareAll ds).subNames = ds.filterMap (fun d => match d with | .sub _ s => some s | _ => none) := by
  suffices h : ∀ n : Node, (ds.foldl declare n).pubNames = n.pubNames ++ ds.filterMap (fun d => match d with | .pub _ s => some s | _ => none) ∧ (ds.foldl declare n).subNames = n.subNames ++ ds.filterMap (fun d => match d with | .sub _ s => some s | _ => none) by
    simpa [declareAll, Node.new] using h .new
  induction ds with
  | nil => simp
  | cons d ds ih =>
    intro n
    rw [List.foldl_cons]
    have := ih (declare n d)
    cases d <;> simpa [declare, List.filterMap_cons] using this

/-- **C255.** A different type at the call than at the declaration is not refused. -/
theorem wrong_type_confused (ds : List Decl) (t d : Nat) (s : String) (h : lastPub ds s = some d) (hn : d ≠ t) : send (declareAll ds) t s = .confused d t := by
  rw [send_exact, h]; simp [hn]

/-! ## When the callbacks run -/

/-- What the user sees happen to a node's callbacks. -/
inductive Ev
  | init | tick | safe | shutdown
  deriving DecidableEq, Repr

/-- What the scheduler asks of a registered node (node_ffi.rs: `init` once before the first tick, then
ticks and safe states as they come, `shutdown` once at the end; node_ffi.rs:83-140).  `between` is what happens from then until it stops. -/
def asks (between : List Ev) : List Ev := .init :: between ++ [.shutdown]

/-- The callbacks registered by `Scheduler::add(Node&)` (scheduler_impl.hpp:90-97): all four. -/
def nodeCallback (_ : Ev) : Bool := true

/-- The callbacks registered by `Scheduler::add(LambdaNode&)` (scheduler_impl.hpp:99-106): the tick only. -/
def lambdaCallback (e : Ev) : Bool := e = .tick

/-- Everything that happens to the callbacks of a `Node`: adding it calls nothing; `built` is whether
`build()` succeeded and the scheduler was run. -/
def nodeLife (built : Bool) (between : List Ev) : List Ev := if built then (asks between).filter nodeCallback else []

/-- The same for a `LambdaNode`: each `add` calls `call_init()` at once (scheduler_impl.hpp:100). -/
def lambdaLife (adds : Nat) (built : Bool) (between : List Ev) : List Ev := List.replicate adds .init ++ if built then (asks between).filter lambdaCallback else []

/-- **C255.** A `Node` sees everything the scheduler asks, in order, and nothing if it is not built and run. -/
theorem node_all (between : List Ev) : nodeLife true between = asks between ∧ nodeLife false between = [] := by
  constructor
  · have : (asks between).filter nodeCallback = asks between := List.filter_eq_self.mpr fun _ _ => rfl
    simp [nodeLife, this]
  · simp [nodeLife]

/-- **C255.** A `LambdaNode` added once is initialized once, before its ticks, and sees every tick. -/
theorem lambda_ticks (between : List Ev) : lambdaLife 1 true between = .init :: between.filter (· = .tick) := by
  simp [lambdaLife, asks, lambdaCallback, List.filter_append]
  rfl

/-- **C255.** It is never told to enter its safe state or that the scheduler is stopping. -/
theorem lambda_never_safe (adds : Nat) (built : Bool) (between : List Ev) : Ev.safe ∉ lambdaLife adds built between ∧ Ev.shutdown ∉ lambdaLife adds built between := by
  cases built <;> simp [lambdaLife, lambdaCallback, List.mem_replicate]

/-- **C255.** It is initialized when it is added, even if it is never built or run, and once per `add`. -/
theorem lambda_init_early (adds : Nat) (between : List Ev) : lambdaLife adds false between = List.replicate adds .init := by
  simp [lambdaLife]

/-! ## Concrete cases -/

example : Consistent [.sub 1 "scan", .pub 2 "cmd", .sub 2 "cmd"] (fun s => if s = "scan" then 1 else 2) := by
  intro d hd; simp at hd; rcases hd with rfl | rfl | rfl <;> simp

example : send (declareAll [.sub 1 "scan", .pub 2 "cmd"]) 2 "cmd" = .reached "cmd" 2 ∧ send (declareAll [.sub 1 "scan", .pub 2 "cmd"]) 1 "scan" = .nothing ∧ send (declareAll [.pub 2 "cmd", .pub 3 "cmd"]) 2 "cmd" = .confused 3 2 := by decide

example : (declareAll [.pub 2 "cmd", .pub 3 "cmd"]).pubNames = ["cmd", "cmd"] := by decide

example : nodeLife true [.tick, .safe] = [.init, .tick, .safe, .shutdown] ∧ lambdaLife 1 true [.tick, .safe] = [.init, .tick] ∧ lambdaLife 2 false [] = [.init, .init] := by decide

end Horus.Lambda
