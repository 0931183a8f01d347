import Mathlib.Data.List.Basic
import Mathlib.Data.Rat.Defs
import Mathlib.Tactic.NormNum
/-
The Python scheduler object, receiving in a Python node, and Python values on untyped topics. Source: /repo/horus_py/src/scheduler.rs:609-775, 904-1067,
/repo/horus_py/horus/__init__.py:725-795 (`has_msg`, `recv`, `recv_all`), 1178-1240 (`run`), /repo/horus_py/src/topic.rs:576-618, 740-770 (untyped topics).
-/
namespace Horus.PySched

/-! ### The scheduler object -/

/-- `PyScheduler` (scheduler.rs:609-615). `out`: the nodes of a core scheduler that was taken out to be run. `looping`: whether it is run in a loop. -/
structure S where
  inner : Option (List String)
  out : Option (List String)
  looping : Bool
  running : Bool
  stopReq : Bool
  deriving DecidableEq

/-- `wrap_core` (scheduler.rs:618-627); the flag of a new core scheduler is `true` (scheduler/mod.rs:400). -/
def S.new : S := ⟨some [], none, false, true, false⟩

/-- What can be done with it, from any thread and from callbacks. `finish` is the end of a run. -/
inductive Op
  | add (name : String)
  | run
  | tickOnce
  | finish
  | stop
  | setRate (name : String)
  deriving DecidableEq

/-- `none`: an error is raised. -/
def step (s : S) : Op → Option S
  | .add n => s.inner.map fun l => { s with inner := some (l ++ [n]) }                                          -- scheduler.rs:704-712
  | .run => s.inner.map fun l => { s with inner := none, out := some l, looping := true, stopReq := false }        -- scheduler.rs:752-759
  | .tickOnce => s.inner.map fun l => { s with inner := none, out := some l, looping := false, stopReq := false }
  | .finish => s.out.map fun l => { s with inner := some l, out := none, looping := false, running := s.running && !s.looping }  -- scheduler.rs:768-771, scheduler/mod.rs:2853
  | .stop => some { s with stopReq := true, running := false }                                                  -- scheduler.rs:948-952
  | .setRate _ => s.inner.map fun _ => s                                                                        -- scheduler.rs:894-901

/-- A history: what fails changes nothing. -/
def exec (s : S) (l : List Op) : S := l.foldl (fun s o => (step s o).getD s) s

/-- scheduler.rs:1026-1035, 1014-1023, 955-957. -/
def hasNode (s : S) (n : String) : Bool := match s.inner with | some l => l.contains n | none => false
def nodeCount (s : S) : Nat := match s.inner with | some l => l.length | none => 0
def isRunning (s : S) : Bool := s.running

/-- Whether a run loop goes round once more (scheduler/mod.rs:3098-3102; a run without a limit). -/
def goesOn (s : S) : Bool := s.running

/-! Specification: -/

/-- The names whose `add` was accepted, in order. -/
def added (s : S) : List Op → List String
  | [] => []
  | .add n :: r => (if (step s (.add n)).isSome then [n] else []) ++ added ((step s (.add n)).getD s) r
  | o :: r => added ((step s o).getD s) r

/-- The nodes there are, in or out. -/
def S.nodes (s : S) : List String := s.inner.getD (s.out.getD [])

def Ok (s : S) : Prop := (s.inner.isSome ∧ s.out = none) ∨ (s.inner = none ∧ s.out.isSome)

theorem ok_step (s t : S) (o : Op) (h : Ok s) (hs : step s o = some t) : Ok t := by
  unfold Ok at *
  cases o <;> simp only [step, Option.map_eq_some_iff] at hs
  case stop => cases hs; exact h
  all_goals
    obtain ⟨l, hl, rfl⟩ := hs
    rcases h with ⟨h1, h2⟩ | ⟨h1, h2⟩ <;> simp_all

theorem ok_exec (l : List Op) (s : S) (h : Ok s) : Ok (exec s l) := by
  induction l generalizing s with
  | nil => exact h
  | cons o r ih =>
    unfold exec
    rw [List.foldl_cons]
    apply ih
    cases hs : step s o with
    | none => exact h
    | some t => exact ok_step s t o h hs

theorem exec_cons (s : S) (o : Op) (r : List Op) : exec s (o :: r) = exec ((step s o).getD s) r := rfl

theorem nodes_step (s t : S) (o : Op) (h : Ok s) (hs : step s o = some t) : t.nodes = s.nodes ++ (match o with | .add n => [n] | _ => []) := by
  unfold Ok at h
  cases o <;> simp only [step, Option.map_eq_some_iff] at hs
  case stop => cases hs; simp [S.nodes]
  all_goals
    obtain ⟨l, hl, rfl⟩ := hs
    rcases h with ⟨h1, h2⟩ | ⟨h1, h2⟩ <;> simp_all [S.nodes]

/-- **No node is lost and none is invented**: in every history the scheduler has the nodes whose `add` was accepted, in that order, running or not. -/
theorem nodes_kept (l : List Op) : (exec .new l).nodes = added .new l := by
  have h : ∀ (l : List Op) (s : S), Ok s → (exec s l).nodes = s.nodes ++ added s l := by
    intro l
    induction l with
    | nil => intro s _; simp [exec, added]
    | cons o r ih =>
      intro s hs
      rw [exec_cons]
      cases ho : step s o with
      | none =>
        rw [Option.getD_none, ih s hs]
        cases o <;> simp [added, ho]
      | some t =>
        rw [Option.getD_some, ih t (ok_step s t o hs ho), nodes_step s t o hs ho]
        cases o <;> simp [added, ho]
  rw [h l .new (Or.inl ⟨rfl, rfl⟩)]
  rfl

example : added .new [.add "a", .run, .add "b", .finish, .add "c"] = ["a", "c"] := by decide +kernel

/-- **While it runs, adding nodes and running it again raise an error** and do nothing (there is no deadlock); `stop` works. -/
theorem no_reentry (s : S) (h : s.inner = none) (n : String) :
    step s (.add n) = none ∧ step s .run = none ∧ step s .tickOnce = none ∧ step s (.setRate n) = none ∧ ∃ t, step s .stop = some t ∧ goesOn t = false := by
  refine ⟨?_, ?_, ?_, ?_, ⟨_, rfl, rfl⟩⟩ <;> simp [step, h]

theorem stays : ∀ (l : List Op) (s : S), s.running = false → (exec s l).running = false := by
  intro l
  induction l with
  | nil => intro s h; exact h
  | cons o r ih =>
    intro s h
    rw [exec_cons]
    apply ih
    cases ho : step s o with
    | none => exact h
    | some t =>
      cases o <;> simp only [step, Option.map_eq_some_iff] at ho
      case stop => cases ho; rfl
      all_goals
        obtain ⟨l, hl, rfl⟩ := ho
        simp_all

/-- **`stop` ends the run at any moment, and no later call undoes it.** -/
theorem stop_stays (s : S) (l : List Op) : goesOn (exec s (.stop :: l)) = false := stays l _ rfl

/-- **A scheduler that is not being run says truly which nodes it has.** -/
theorem has_node_partial (l : List Op) (n : String) (h : (exec .new l).out = none) : hasNode (exec .new l) n = true ↔ n ∈ added .new l := by
  rw [← nodes_kept]
  have := ok_exec l .new (Or.inl ⟨rfl, rfl⟩)
  rcases this with ⟨h1, _⟩ | ⟨_, h2⟩
  · obtain ⟨x, hx⟩ := Option.isSome_iff_exists.1 h1
    simp [hasNode, S.nodes, hx]
  · rw [h] at h2; cases h2

example : (exec .new [.add "a", .run, .finish]).out = none ∧ hasNode (exec .new [.add "a", .run, .finish]) "a" = true := by decide +kernel

/-- **Disagreement: while it runs it says that it has no nodes.** -/
theorem running_denies (s : S) (h : s.inner = none) (n : String) : hasNode s n = false ∧ nodeCount s = 0 := by simp [hasNode, nodeCount, h]

example : (exec .new [.add "a", .run]).inner = none := by decide +kernel

/-- **Disagreement: it says it is running before it is run.** -/
theorem running_before (l : List String) : isRunning (exec .new (l.map .add)) = true ∧ (exec .new (l.map .add)).out = none := by
  have : ∀ (l : List String) (s : S), s.running = true → s.out = none → isRunning (exec s (l.map .add)) = true ∧ (exec s (l.map .add)).out = none := by
    intro l
    induction l with
    | nil => intro s h h'; exact ⟨h, h'⟩
    | cons n r ih =>
      intro s h h'
      rw [List.map_cons, exec_cons]
      cases hi : s.inner with
      | none => simpa [step, hi] using ih s h h'
      | some x => simpa [step, hi] using ih _ (by simpa using h) (by simpa using h')
  exact this l .new rfl rfl

/-- **Disagreement: it can be run once.** After a first run any later run ends before its first tick. -/
theorem one_run (s : S) (h : s.inner.isSome) (l : List Op) : goesOn (exec s ([.run, .finish] ++ l)) = false := by
  obtain ⟨x, hx⟩ := Option.isSome_iff_exists.1 h
  have he : exec s ([.run, .finish] ++ l) = exec { s with inner := some x, out := none, looping := false, running := false, stopReq := false } l := by
    simp [exec, step, hx]
  rw [he]
  exact stays l _ rfl

/-- `Scheduler.run(duration)` (__init__.py:1209-1214, scheduler.rs:910-913): an error, for ever, or for a time. -/
inductive Length
  | refused
  | forever
  | seconds (d : Rat)

def runLength : Option Rat → Length
  | none => .forever
  | some d => if d = 0 then .forever else if d ≤ 0 then .refused else .seconds d

/-- **A positive duration is kept; no duration is for ever.** -/
theorem length_positive (d : Rat) (h : 0 < d) : runLength (some d) = .seconds d ∧ runLength none = .forever := by
  unfold runLength
  exact ⟨by dsimp only; rw [if_neg (ne_of_gt h), if_neg (not_le.2 h)], rfl⟩

/-- **Disagreement: a duration of zero is for ever.** -/
theorem zero_forever : runLength (some 0) = .forever := by simp [runLength]

/-! ### Receiving -/

/-- One topic of a node: what `has_msg` has set aside, and what the topic still has to give. A message is a Python object; `none` is `None`. -/
structure Inbox (α : Type) where
  peeked : Option α
  queue : List (Option α)

variable {α : Type}

/-- `Topic.recv` (topic.rs:636): `None` also if there is nothing. -/
def pop (q : List (Option α)) : Option α × List (Option α) :=
  match q with
  | [] => (none, [])
  | m :: r => (m, r)

/-- `has_msg` (__init__.py:725-749). -/
def hasMsg (b : Inbox α) : Bool × Inbox α :=
  match b.peeked with
  | some _ => (true, b)
  | none =>
    let p := pop b.queue
    match p.1 with
    | some m => (true, ⟨some m, p.2⟩)
    | none => (false, ⟨none, p.2⟩)

/-- `recv` (__init__.py:751-776). -/
def recv (b : Inbox α) : Option α × Inbox α :=
  match b.peeked with
  | some m => (some m, ⟨none, b.queue⟩)
  | none => let p := pop b.queue; (p.1, ⟨none, p.2⟩)

/-- `recv_all` (__init__.py:778-795). -/
def recvAllQ : List (Option α) → List α × List (Option α)
  | [] => ([], [])
  | none :: r => ([], r)
  | some m :: r => let p := recvAllQ r; (m :: p.1, p.2)

def recvAll (b : Inbox α) : List α × Inbox α :=
  let p := recvAllQ b.queue
  match b.peeked with
  | some m => (m :: p.1, ⟨none, p.2⟩)
  | none => (p.1, ⟨none, p.2⟩)

/-- What happens to a topic. -/
inductive Ev (α : Type)
  | arrives (m : Option α)
  | hasMsg
  | recv
  | recvAll

/-- What the node is given. -/
def on (b : Inbox α) : Ev α → List α × Inbox α
  | .arrives m => ([], ⟨b.peeked, b.queue ++ [m]⟩)
  | .hasMsg => ([], (hasMsg b).2)
  | .recv => ((recv b).1.toList, (recv b).2)
  | .recvAll => recvAll b

def given (b : Inbox α) : List (Ev α) → List α × Inbox α
  | [] => ([], b)
  | e :: r => let p := on b e; let q := given p.2 r; (p.1 ++ q.1, q.2)

/-- What arrived. -/
def arrived : List (Ev α) → List α
  | [] => []
  | .arrives m :: r => m.toList ++ arrived r
  | _ :: r => arrived r

/-- What is still to come. -/
def rest (b : Inbox α) : List α := b.peeked.toList ++ b.queue.flatMap Option.toList

theorem recvAllQ_spec (q : List (Option α)) : (recvAllQ q).1 ++ (recvAllQ q).2.flatMap Option.toList = q.flatMap Option.toList := by
  induction q with
  | nil => rfl
  | cons m r ih =>
    cases m with
    | none => simp [recvAllQ]
    | some x => simp [recvAllQ, ih]

theorem on_spec (b : Inbox α) (e : Ev α) : (on b e).1 ++ rest (on b e).2 = rest b ++ arrived [e] := by
  obtain ⟨p, q⟩ := b
  cases e with
  | arrives m => simp [on, rest, arrived]
  | hasMsg =>
    cases p with
    | some x => simp [on, hasMsg, rest, arrived]
    | none =>
      cases q with
      | nil => simp [on, hasMsg, pop, rest, arrived]
      | cons m r => cases m <;> simp [on, hasMsg, pop, rest, arrived]
  | recv =>
    cases p with
    | some x => simp [on, recv, rest, arrived]
    | none =>
      cases q with
      | nil => simp [on, recv, pop, rest, arrived]
      | cons m r => cases m <;> simp [on, recv, pop, rest, arrived]
  | recvAll =>
    have := recvAllQ_spec q
    cases p with
    | some x => simp [on, recvAll, rest, arrived, this]
    | none => simp [on, recvAll, rest, arrived, this]

theorem arrived_append (x y : List (Ev α)) : arrived (x ++ y) = arrived x ++ arrived y := by
  induction x with
  | nil => rfl
  | cons e r ih => cases e <;> simp [arrived, ih]

/-- **Every message is given once, in order, however `has_msg`, `recv` and `recv_all` are mixed** and whenever messages arrive: what was given followed by
what is still to come is what arrived. -/
theorem each_once (l : List (Ev α)) : (given ⟨none, []⟩ l).1 ++ rest (given ⟨none, []⟩ l).2 = arrived l := by
  have h : ∀ (l : List (Ev α)) (b : Inbox α), (given b l).1 ++ rest (given b l).2 = rest b ++ arrived l := by
    intro l
    induction l with
    | nil => intro b; simp [given, arrived]
    | cons e r ih =>
      intro b
      have h1 := on_spec b e
      have h2 := ih (on b e).2
      unfold given
      dsimp only
      rw [List.append_assoc, h2, ← List.append_assoc, h1, List.append_assoc, ← arrived_append]
      rfl
  rw [h]
  simp [rest]

/-- **`has_msg` says whether there is a message, and the next `recv` gives it.** -/
theorem has_msg_partial (b : Inbox α) (h : none ∉ b.queue) : (hasMsg b).1 = true ↔ rest b ≠ [] := by
  obtain ⟨p, q⟩ := b
  cases p with
  | some x => simp [hasMsg, rest]
  | none =>
    cases q with
    | nil => simp [hasMsg, pop, rest]
    | cons m r => cases m <;> simp_all [hasMsg, pop, rest]

theorem has_msg_then (b : Inbox α) (h : (hasMsg b).1 = true) : ∃ m, (recv (hasMsg b).2).1 = some m ∧ (rest b).head? = some m := by
  obtain ⟨p, q⟩ := b
  cases p with
  | some x => exact ⟨x, by simp [hasMsg, recv], by simp [rest]⟩
  | none =>
    cases q with
    | nil => simp [hasMsg, pop] at h
    | cons m r =>
      cases m with
      | none => simp [hasMsg, pop] at h
      | some x => exact ⟨x, by simp [hasMsg, pop, recv], by simp [rest]⟩

/-- **`recv_all` leaves nothing.** -/
theorem recv_all_partial (b : Inbox α) (h : none ∉ b.queue) : (recvAll b).1 = rest b ∧ rest (recvAll b).2 = [] := by
  obtain ⟨p, q⟩ := b
  have hq : ∀ q : List (Option α), none ∉ q → recvAllQ q = (q.flatMap Option.toList, []) := by
    intro q
    induction q with
    | nil => intro _; rfl
    | cons m r ih =>
      intro h
      cases m with
      | none => simp at h
      | some x => simp at h; simp [recvAllQ, ih h]
  cases p <;> simp [recvAll, rest, hq q h]

example : (none : Option Nat) ∉ [some 1, some 2] := by decide

/-- **Disagreement: a message that is `None` hides those behind it** from `has_msg` and `recv_all`. -/
theorem none_hides (m : α) : (hasMsg ⟨none, [none, some m]⟩).1 = false ∧ (recvAll ⟨none, [none, some m]⟩).1 = [] := ⟨rfl, rfl⟩

/-! ### Values on untyped topics -/

/-- Python values that can be sent. A float is its bits and whether it is finite; dictionaries have string keys (others are refused) and are taken up to
the order of their keys. -/
inductive Val
  | none
  | bool (b : Bool)
  | int (i : Int)
  | float (bits : Nat) (finite : Bool)
  | str (s : String)
  | bytes (b : List Nat)
  | list (l : List Val)
  | tuple (l : List Val)
  | dict (l : List (String × Val))

/-- `serde_json::Value`. -/
inductive Json
  | null
  | bool (b : Bool)
  | int (i : Int)
  | float (bits : Nat)
  | str (s : String)
  | arr (l : List Json)
  | obj (l : List (String × Json))

mutual
/-- `depythonize` into `serde_json::Value` (topic.rs:577-583): a float that is not finite is not a JSON number and becomes `Null`; bytes and numbers
beyond 64 bits are refused; MessagePack keeps JSON values exactly. -/
def enc : Val → Option Json
  | .none => some .null
  | .bool b => some (.bool b)
  | .int i => if -9223372036854775808 ≤ i ∧ i < 18446744073709551616 then some (.int i) else none
  | .float x f => some (if f then .float x else .null)
  | .str s => some (.str s)
  | .bytes _ => none
  | .list l => (encL l).map .arr
  | .tuple l => (encL l).map .arr
  | .dict l => (encD l).map .obj
def encL : List Val → Option (List Json)
  | [] => some []
  | v :: r => (enc v).bind fun j => (encL r).map (j :: ·)
def encD : List (String × Val) → Option (List (String × Json))
  | [] => some []
  | (k, v) :: r => (enc v).bind fun j => (encD r).map ((k, j) :: ·)
end

mutual
/-- `pythonize` (topic.rs:757-760). -/
def dec : Json → Val
  | .null => .none
  | .bool b => .bool b
  | .int i => .int i
  | .float x => .float x true
  | .str s => .str s
  | .arr l => .list (decL l)
  | .obj l => .dict (decD l)
def decL : List Json → List Val
  | [] => []
  | j :: r => dec j :: decL r
def decD : List (String × Json) → List (String × Val)
  | [] => []
  | (k, j) :: r => (k, dec j) :: decD r
end

/-- What arrives of a value that is sent; `none`: `send` raises. -/
def arrives (v : Val) : Option Val := (enc v).map dec

mutual
/-- Values of which every part is kept. -/
def Plain : Val → Prop
  | .int i => -9223372036854775808 ≤ i ∧ i < 18446744073709551616
  | .float _ f => f = true
  | .bytes _ => False
  | .tuple _ => False
  | .list l => PlainL l
  | .dict l => PlainD l
  | _ => True
def PlainL : List Val → Prop
  | [] => True
  | v :: r => Plain v ∧ PlainL r
def PlainD : List (String × Val) → Prop
  | [] => True
  | (_, v) :: r => Plain v ∧ PlainD r
end

mutual
/-- **A value made of what JSON has arrives as it was sent.** -/
theorem plain_arrives_partial : ∀ v : Val, Plain v → arrives v = some v
  | .none, _ => rfl
  | .bool _, _ => rfl
  | .int i, h => by simp only [Plain] at h; simp [arrives, enc, h, dec]
  | .float x f, h => by simp only [Plain] at h; subst h; rfl
  | .str _, _ => rfl
  | .bytes _, h => by simp [Plain] at h
  | .tuple _, h => by simp [Plain] at h
  | .list l, h => by
    obtain ⟨j, hj, e⟩ := plainL l (by simpa [Plain] using h)
    simp [arrives, enc, hj, dec, e]
  | .dict l, h => by
    obtain ⟨j, hj, e⟩ := plainD l (by simpa [Plain] using h)
    simp [arrives, enc, hj, dec, e]
theorem plainL : ∀ l : List Val, PlainL l → ∃ j, encL l = some j ∧ decL j = l
  | [], _ => ⟨[], rfl, rfl⟩
  | v :: r, h => by
    simp only [PlainL] at h
    have h1 := plain_arrives_partial v h.1
    obtain ⟨js, h2, h3⟩ := plainL r h.2
    simp only [arrives, Option.map_eq_some_iff] at h1
    obtain ⟨j, hj, e⟩ := h1
    exact ⟨j :: js, by simp [encL, hj, h2], by simp [decL, e, h3]⟩
theorem plainD : ∀ l : List (String × Val), PlainD l → ∃ j, encD l = some j ∧ decD j = l
  | [], _ => ⟨[], rfl, rfl⟩
  | (k, v) :: r, h => by
    simp only [PlainD] at h
    have h1 := plain_arrives_partial v h.1
    obtain ⟨js, h2, h3⟩ := plainD r h.2
    simp only [arrives, Option.map_eq_some_iff] at h1
    obtain ⟨j, hj, e⟩ := h1
    exact ⟨(k, j) :: js, by simp [encD, hj, h2], by simp [decD, e, h3]⟩
end

example : Plain (.dict [("x", .list [.int 3, .float 5 true]), ("name", .str "a")]) := by simp [Plain, PlainD, PlainL]

/-- **Disagreement: a float that is not a number, or infinite, arrives as `None`**, wherever in the value it is. -/
theorem nan_none (x : Nat) (k : String) : arrives (.float x false) = some .none ∧ arrives (.dict [(k, .float x false)]) = some (.dict [(k, .none)]) := ⟨rfl, rfl⟩

/-- **Disagreement: a tuple arrives as a list.** -/
theorem tuple_list (l : List Val) (h : PlainL l) : arrives (.tuple l) = some (.list l) := by
  obtain ⟨j, hj, e⟩ := plainL l h
  simp [arrives, enc, hj, dec, e]

/-- **Bytes and integers of more than 64 bits are refused**, not sent wrongly. -/
theorem refused (b : List Nat) (i : Int) (h : i < -9223372036854775808 ∨ 18446744073709551616 ≤ i) : arrives (.bytes b) = none ∧ arrives (.int i) = none := by
  refine ⟨rfl, ?_⟩
  unfold arrives enc
  rw [if_neg (by omega)]
  rfl

end Horus.PySched
