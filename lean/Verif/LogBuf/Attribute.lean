/-
To which node a log line is put down: the per-thread node context set around
every call of a node, `hlog!`, and the bridge for the `log` crate.

Modelled source: horus_core/src/core/hlog.rs (26-229),
horus_core/src/core/log_bridge.rs (34-129); the calls around init, tick,
shutdown and on_error at horus_core/src/scheduling/scheduler/mod.rs:3003-3008,
3149-3154, 3685-3690, 4370-4411, 5011-5021, 5275-5297 and
horus_core/src/scheduling/primitives.rs:234-275.
-/
import Mathlib.Tactic.Common
import Mathlib.Data.List.Induction

namespace Horus.Attribute

abbrev Name := String

/-- `NodeLogContext`; time in microseconds.

Models horus_core/src/core/hlog.rs:31-38. -/
structure Ctx where
  name : Name
  start : Option Nat
  tick : Nat
deriving DecidableEq, Repr

/-- The context of every thread. -/
abbrev Ctxs := Nat → Option Ctx

/-- `set_node_context`: both branches leave the same value.

Models horus_core/src/core/hlog.rs:44-61. -/
def enter (c : Ctxs) (t : Nat) (n : Name) (k now : Nat) : Ctxs :=
  fun x => if x = t then some ⟨n, some now, k⟩ else c x

/-- `clear_node_context`: only the start is cleared.

Models horus_core/src/core/hlog.rs:67-73. -/
def leave (c : Ctxs) (t : Nat) : Ctxs :=
  fun x => if x = t then (c t).map fun y => { y with start := none } else c x

/-- `in_node_context`.

Models horus_core/src/core/hlog.rs:93-99. -/
def inside (c : Ctxs) (t : Nat) : Bool := (c t).any fun y => y.start.isSome

/-- `current_node_name`.

Models horus_core/src/core/hlog.rs:76-84. -/
def currentName (c : Ctxs) (t : Nat) : Name :=
  match c t with
  | some ⟨n, some _, _⟩ => n
  | _ => "unknown"

/-- `current_tick_number`: whether or not a call is under way.

Models horus_core/src/core/hlog.rs:102-104. -/
def currentTick (c : Ctxs) (t : Nat) : Nat :=
  match c t with
  | some y => y.tick
  | none => 0

/-- A line in the log buffer, the fields that attribute it. -/
structure Entry where
  node : Name
  tick : Nat
  us : Nat
  msg : String
deriving DecidableEq, Repr

/-- `log_with_context`.

Models horus_core/src/core/hlog.rs:108-141. -/
def logLine (c : Ctxs) (t now : Nat) (m : String) : Entry :=
  match c t with
  | some ⟨n, some s, k⟩ => ⟨n, k, now - s, m⟩
  | _ => ⟨"unknown", 0, 0, m⟩

/-- `log_as_node`.

Models horus_core/src/core/hlog.rs:152-176. -/
def logAs (c : Ctxs) (t now : Nat) (n : Name) (m : String) : Entry :=
  match c t with
  | some ⟨_, some s, k⟩ => ⟨n, k, now - s, m⟩
  | some ⟨_, none, k⟩ => ⟨n, k, 0, m⟩
  | none => ⟨n, 0, 0, m⟩

/-- What threads do: the scheduler enters and leaves a call of a node, code
logs, code logs for a named node. -/
inductive Ev
  | enter (t : Nat) (n : Name) (k now : Nat)
  | leave (t : Nat)
  | log (t now : Nat) (m : String)
  | logAs (t now : Nat) (n : Name) (m : String)
deriving DecidableEq, Repr

structure St where
  ctx : Ctxs := fun _ => none
  out : List Entry := []

/-- One event. -/
def step (s : St) : Ev → St
  | .enter t n k now => { s with ctx := enter s.ctx t n k now }
  | .leave t => { s with ctx := leave s.ctx t }
  | .log t now m => { s with out := s.out ++ [logLine s.ctx t now m] }
  | .logAs t now n m => { s with out := s.out ++ [logAs s.ctx t now n m] }

def run (h : List Ev) : St := h.foldl step {}

/-! ### Console lines -/

inductive Level | info | warning | error | debug | publish | subscribe | other
deriving DecidableEq, Repr

/-- The coloured tag of a level; none for publish and subscribe entries.

Models horus_core/src/core/hlog.rs:216-224. -/
def tagOf : Level → Option (List Char)
  | .info => some "\x1b[34m[INFO]\x1b[0m".toList
  | .warning => some "\x1b[33m[WARN]\x1b[0m".toList
  | .error => some "\x1b[31m[ERROR]\x1b[0m".toList
  | .debug => some "\x1b[90m[DEBUG]\x1b[0m".toList
  | _ => none

/-- `format_console_line`.

Models horus_core/src/core/hlog.rs:210-229. -/
def console (l : Level) (node msg : String) (raw : Bool) : Option (List Char) :=
  (tagOf l).map fun g => g ++ (" \x1b[33m[".toList ++ (node.toList ++ ("]\x1b[0m ".toList ++ (msg.toList ++
    (if raw then ['\r', '\n'] else ['\n'])))))

/-! ### The bridge -/

/-- Levels of the `log` crate, most severe first, with `off` for a filter. -/
inductive Sev | off | error | warn | info | debug | trace
deriving DecidableEq, Repr

def Sev.rank : Sev → Nat
  | .off => 0 | .error => 1 | .warn => 2 | .info => 3 | .debug => 4 | .trace => 5

/-- The filter `init_log_bridge` sets for a (lower-cased) text.

Models horus_core/src/core/log_bridge.rs:112-118. -/
def filterOf (s : String) : Sev :=
  if s = "trace" then .trace else if s = "debug" then .debug else if s = "info" then .info
  else if s = "error" then .error else .warn

/-- Whether a record of level `l` reaches the buffer: the crate's maximum level
and the bridge's own, which is fixed.

Models horus_core/src/core/log_bridge.rs:41-48, 98-100, 119-120. -/
def forwarded (setting : String) (l : Sev) : Bool :=
  l.rank ≤ (filterOf setting).rank && l.rank ≤ Sev.debug.rank

/-- The line made of a record.

Models horus_core/src/core/log_bridge.rs:50-74. -/
def bridged (target msg : String) : Entry := ⟨target, 0, 0, msg⟩

/-! ### Specification -/

/-- The event is the scheduler entering or leaving a call on thread `t`. -/
def Touches (t : Nat) : Ev → Prop
  | .enter t' _ _ _ => t' = t
  | .leave t' => t' = t
  | _ => False

/-- Thread `t` is inside a call of node `n` for tick `k`, begun at time `s`. -/
def Inside (h : List Ev) (t : Nat) (n : Name) (k s : Nat) : Prop :=
  ∃ a b, h = a ++ Ev.enter t n k s :: b ∧ ∀ e ∈ b, ¬Touches t e

/-- Thread `t` has left the last call it was in, which was for tick `k`. -/
def After (h : List Ev) (t k : Nat) : Prop :=
  ∃ a b c n s, h = a ++ Ev.enter t n k s :: (b ++ Ev.leave t :: c) ∧
    (∀ e ∈ b, ¬Touches t e) ∧ ∀ e ∈ c, ¬Touches t e

/-- Thread `t` has never been in a call. -/
def Never (h : List Ev) (t : Nat) : Prop := ∀ e ∈ h, ∀ n k s, e ≠ Ev.enter t n k s

/-! ### Lemmas -/

theorem run_append (a b : List Ev) : run (a ++ b) = b.foldl step (run a) := List.foldl_append ..

theorem fold_other (t : Nat) (b : List Ev) : ∀ s : St, (∀ e ∈ b, ¬Touches t e) →
    (b.foldl step s).ctx t = s.ctx t := by
  induction b with
  | nil => intro s _; rfl
  | cons e es ih =>
    intro s h
    rw [List.foldl_cons, ih _ fun x hx => h x (List.mem_cons_of_mem _ hx)]
    have he := h e List.mem_cons_self
    cases e with
    | enter t' n k now => have : ¬t = t' := fun q => he q.symm
                          simp [step, enter, this]
    | leave t' => have : ¬t = t' := fun q => he q.symm
                  simp [step, leave, this]
    | log => rfl
    | logAs => rfl

theorem ctx_inside {h : List Ev} {t : Nat} {n : Name} {k s : Nat} (hi : Inside h t n k s) :
    (run h).ctx t = some ⟨n, some s, k⟩ := by
  obtain ⟨a, b, rfl, hb⟩ := hi
  rw [run_append, List.foldl_cons, fold_other t b _ hb]
  simp [step, enter]

theorem ctx_after {h : List Ev} {t k : Nat} (hi : After h t k) :
    ∃ n, (run h).ctx t = some ⟨n, none, k⟩ := by
  obtain ⟨a, b, c, n, s, rfl, hb, hc⟩ := hi
  refine ⟨n, ?_⟩
  rw [run_append, List.foldl_cons, List.foldl_append, List.foldl_cons, fold_other t c _ hc]
  simp [step, leave, fold_other t b _ hb, enter]

theorem ctx_never {h : List Ev} {t : Nat} (hn : Never h t) : (run h).ctx t = none := by
  have key : ∀ (b : List Ev) (s : St), (∀ e ∈ b, ∀ n k x, e ≠ Ev.enter t n k x) → s.ctx t = none →
      (b.foldl step s).ctx t = none := by
    intro b
    induction b with
    | nil => intro s _ h; exact h
    | cons e es ih =>
      intro s hb hs
      refine ih _ (fun x hx => hb x (List.mem_cons_of_mem _ hx)) ?_
      have he := hb e List.mem_cons_self
      cases e with
      | enter t' n k now =>
        have : ¬t = t' := by rintro rfl; exact he n k now rfl
        simp [step, enter, this, hs]
      | leave t' =>
        by_cases ht : t = t'
        · subst ht; simp [step, leave, hs]
        · simp [step, leave, ht, hs]
      | log => exact hs
      | logAs => exact hs
  exact key h {} hn rfl

/-! ### Theorems -/

/-- A line logged in a call of a node is put down to that node and tick, with
the time since the call began, whatever other threads do meanwhile. -/
theorem logged_inside {h : List Ev} {t : Nat} {n : Name} {k s : Nat} (hi : Inside h t n k s)
    (now : Nat) (m : String) :
    (run (h ++ [.log t now m])).out = (run h).out ++ [⟨n, k, now - s, m⟩] := by
  rw [run_append]
  simp [step, logLine, ctx_inside hi]

/-- Outside every call a line is put down to "unknown". -/
theorem logged_outside {h : List Ev} {t : Nat} (ho : Never h t ∨ ∃ k, After h t k)
    (now : Nat) (m : String) :
    (run (h ++ [.log t now m])).out = (run h).out ++ [⟨"unknown", 0, 0, m⟩] := by
  rw [run_append]
  rcases ho with ho | ⟨k, ho⟩
  · simp [step, logLine, ctx_never ho]
  · obtain ⟨n, hc⟩ := ctx_after ho
    simp [step, logLine, hc]

/-- A line logged for a named node is put down to it wherever it is logged. -/
theorem logged_as (h : List Ev) (t now : Nat) (n : Name) (m : String) :
    ∃ e, (run (h ++ [.logAs t now n m])).out = (run h).out ++ [e] ∧ e.node = n ∧ e.msg = m := by
  rw [run_append]
  refine ⟨logAs (run h).ctx t now n m, rfl, ?_, ?_⟩ <;>
  · unfold logAs
    split <;> rfl

/-- The name used for topics is that of the call under way, or "unknown". -/
theorem name_inside {h : List Ev} {t : Nat} {n : Name} {k s : Nat} (hi : Inside h t n k s) :
    currentName (run h).ctx t = n ∧ inside (run h).ctx t = true ∧ currentTick (run h).ctx t = k := by
  simp [currentName, inside, currentTick, ctx_inside hi]

theorem name_outside {h : List Ev} {t : Nat} (ho : Never h t ∨ ∃ k, After h t k) :
    currentName (run h).ctx t = "unknown" ∧ inside (run h).ctx t = false := by
  rcases ho with ho | ⟨k, ho⟩
  · simp [currentName, inside, ctx_never ho]
  · obtain ⟨n, hc⟩ := ctx_after ho
    simp [currentName, inside, hc]

/-- **Finding.**  Outside a call the tick number is that of the thread's last
call: a topic's own log lines are put down to node "unknown" at that tick, and
a line for a named node at a tick of whichever node ran there last. -/
theorem tick_left_behind {h : List Ev} {t k : Nat} (ho : After h t k) (now : Nat) (n : Name)
    (m : String) :
    currentTick (run h).ctx t = k ∧
    (run (h ++ [.logAs t now n m])).out = (run h).out ++ [⟨n, k, 0, m⟩] := by
  obtain ⟨n', hc⟩ := ctx_after ho
  refine ⟨by simp [currentTick, hc], ?_⟩
  rw [run_append]
  simp [step, logAs, hc]

/-- Every thread is in one of the three situations, so the statements above
cover every line. -/
theorem situations (h : List Ev) (t : Nat)
    (hb : ∀ a b, h = a ++ Ev.leave t :: b → ∃ n k s, Inside a t n k s) :
    Never h t ∨ (∃ k, After h t k) ∨ ∃ n k s, Inside h t n k s := by
  induction h using List.reverseRecOn with
  | nil => exact Or.inl fun e he => absurd he (by simp)
  | append_singleton h e ih =>
    by_cases ht : Touches t e
    · cases e with
      | enter t' n k s =>
        have : t' = t := ht
        subst this
        exact Or.inr (Or.inr ⟨n, k, s, h, [], rfl, by simp⟩)
      | leave t' =>
        have : t' = t := ht
        subst this
        obtain ⟨n, k, s, a, b, rfl, hb'⟩ := hb h [] rfl
        exact Or.inr (Or.inl ⟨k, a, b, [], n, s, by simp, hb', by simp⟩)
      | log => exact absurd ht (by simp [Touches])
      | logAs => exact absurd ht (by simp [Touches])
    · have hb2 : ∀ a b, h = a ++ Ev.leave t :: b → ∃ n k s, Inside a t n k s := fun a b hab =>
        hb a (b ++ [e]) (by simp [hab])
      have he : ∀ n k s, e ≠ Ev.enter t n k s := by
        rintro n k s rfl; exact ht rfl
      rcases ih hb2 with h1 | ⟨k, a, b, c, n, s, rfl, h2, h3⟩ | ⟨n, k, s, a, b, rfl, h2⟩
      · left
        intro x hx n k s
        rcases List.mem_append.1 hx with hx | hx
        · exact h1 x hx n k s
        · rw [List.mem_singleton.1 hx]; exact he n k s
      · right; left
        refine ⟨k, a, b, c ++ [e], n, s, by simp, h2, ?_⟩
        intro x hx
        rcases List.mem_append.1 hx with hx | hx
        · exact h3 x hx
        · rw [List.mem_singleton.1 hx]; exact ht
      · right; right
        refine ⟨n, k, s, a, b ++ [e], by simp, ?_⟩
        intro x hx
        rcases List.mem_append.1 hx with hx | hx
        · exact h2 x hx
        · rw [List.mem_singleton.1 hx]; exact ht

/-- Lines are kept in the order they were logged, none is changed later. -/
theorem lines_kept (a b : List Ev) : (run a).out <+: (run (a ++ b)).out := by
  rw [run_append]
  generalize run a = s
  induction b generalizing s with
  | nil => exact List.prefix_rfl
  | cons e es ih =>
    refine List.IsPrefix.trans ?_ (ih (step s e))
    cases e <;> simp [step]

/-- The console shows information, warnings, errors and debug lines, with name
and message as they are, the name in brackets before the message; nothing
else. -/
theorem console_shown (l : Level) (node msg : String) (raw : Bool) :
    ((console l node msg raw).isSome ↔ l = .info ∨ l = .warning ∨ l = .error ∨ l = .debug) ∧
    ∀ line, console l node msg raw = some line →
      ∃ a b, line = a ++ ('[' :: (node.toList ++ (']' :: (b ++ (msg.toList ++
        (if raw then ['\r', '\n'] else ['\n'])))))) ∧ b = "\x1b[0m ".toList := by
  constructor
  · cases l <;> simp [console, tagOf]
  · intro line h
    simp only [console, Option.map_eq_some_iff] at h
    obtain ⟨g, -, rfl⟩ := h
    exact ⟨g ++ " \x1b[33m".toList, _, by simp, rfl⟩

/-- Lines of different levels differ on the console. -/
theorem tags_differ (l l' : Level) (g : List Char) (h : tagOf l = some g) (h' : tagOf l' = some g) :
    l = l' := by
  have h2 : tagOf l = tagOf l' := h.trans h'.symm
  have h3 : (tagOf l).isSome = true := by simp [h]
  clear h h'
  revert h2 h3
  cases l <;> cases l' <;> decide +kernel

/-- What reaches the buffer through the bridge: everything at least as severe
as the setting, but no trace records. -/
theorem forwarded_iff (setting : String) (l : Sev) :
    forwarded setting l = true ↔ l.rank ≤ (filterOf setting).rank ∧ l ≠ .trace := by
  simp only [forwarded, Bool.and_eq_true, decide_eq_true_eq]
  refine and_congr_right fun _ => ?_
  cases l <;> simp [Sev.rank]

/-- Errors are always forwarded, and a more severe record wherever a less
severe one is. -/
theorem forwarded_mono (setting : String) (l l' : Sev) (h : l.rank ≤ l'.rank)
    (hf : forwarded setting l' = true) : forwarded setting l = true := by
  simp only [forwarded, Bool.and_eq_true, decide_eq_true_eq] at *
  exact ⟨Nat.le_trans h hf.1, Nat.le_trans h hf.2⟩

theorem errors_forwarded (setting : String) : forwarded setting .error = true := by
  unfold forwarded filterOf
  split_ifs <;> rfl

/-- **Finding.**  The setting "trace" gives what "debug" gives. -/
theorem trace_is_debug (l : Sev) : forwarded "trace" l = forwarded "debug" l := by
  cases l <;> decide

/-- **Finding.**  "off" gives warnings and errors, as every unknown text does. -/
theorem off_is_warn : forwarded "off" .warn = true ∧ forwarded "off" .info = false := by decide

/-! ### Cases -/

example : (run [.enter 0 "a" 3 100, .enter 1 "b" 7 110, .log 0 130 "x", .log 1 140 "y", .leave 0, .log 0 150 "z", .logAs 0 160 "c" "w"]).out = [⟨"a", 3, 30, "x"⟩, ⟨"b", 7, 30, "y"⟩, ⟨"unknown", 0, 0, "z"⟩, ⟨"c", 3, 0, "w"⟩] := by decide
example : Inside [.enter 0 "a" 3 100, .enter 1 "b" 7 110, .leave 1] 0 "a" 3 100 :=
  ⟨[], [.enter 1 "b" 7 110, .leave 1], rfl, by simp [Touches]⟩

end Horus.Attribute
