import Verif.Build.Builder
import Mathlib.Algebra.Order.Round
import Mathlib.Data.Rat.Floor
/-
Python nodes: what their arguments become, and how their callbacks are run. Source: /repo/horus_py/horus/__init__.py:401-583, 856-914, 1125-1176
(`Node`, `Scheduler.add`), /repo/horus_py/src/scheduler.rs:85-321 (`PyNodeAdapter`), 378-599 (`PyNodeBuilder`), 629-723 (`add_node_internal`).
Numbers are exact; NaN and infinities are left out; `Duration::from_secs_f64` rounds to the nearest nanosecond (ties are taken upwards).
-/
namespace Horus.PyNode
open Horus.Builder (Reg Call Cls Refusal apply build finalize check)
open Horus.Clocks (budgetDefault deadlineDefault)

/-- The scheduling arguments of `horus.Node(...)` (__init__.py:447-470). `isAsync`: some callback is `async def`. -/
structure Kw where
  rate : Rat := 30
  order : Nat := 0
  budget : Option Rat := none
  deadline : Option Rat := none
  onMiss : Option String := none
  failure : Option String := none
  compute : Bool := false
  on : Option String := none
  isAsync : Bool := false
  priority : Option Int := none
  core : Option Nat := none
  watchdog : Option Rat := none

inductive Err
  | value      -- ValueError of `Node` or of the builder
  | runtime    -- RuntimeError
  deriving DecidableEq

/-- `f64::secs` (duration_ext.rs:166-168). -/
def toNs (s : Rat) : Nat := (round (s * 1000000000)).toNat

/-- `parse_miss_policy` (scheduler.rs:365-376), with the numbers of `Miss`. -/
def missOf (s : String) : Option Nat :=
  if s = "warn" then some 0 else if s = "skip" then some 1 else if s = "safe_mode" ∨ s = "safemode" then some 2 else if s = "stop" then some 3 else none

/-- scheduler.rs:489-505, with numbers for the four policies. -/
def failureOf (s : String) : Option Nat :=
  if s = "fatal" then some 0 else if s = "restart" then some 1 else if s = "skip" then some 2 else if s = "ignore" then some 3 else none

/-- __init__.py:1164-1169: an empty topic is not taken. -/
def classCalls (k : Kw) : List Call :=
  if k.isAsync then [.asyncIo] else if k.compute then [.compute] else match k.on with | some t => if t = "" then [] else [.on t] | none => []

/-- The calls of `add_node_internal` (scheduler.rs:661-702). -/
def calls (k : Kw) (miss failure : Option Nat) : List Call :=
  [.order k.order, .rate k.rate] ++ (miss.map Call.onMiss).toList ++ (failure.map Call.failurePolicy).toList ++ classCalls k ++
  (k.budget.map fun s => Call.budget (toNs s)).toList ++ (k.deadline.map fun s => Call.deadline (toNs s)).toList ++
  (k.priority.map Call.priority).toList ++ (k.core.map Call.core).toList ++ (k.watchdog.map fun s => Call.watchdog (toNs s)).toList

/-- `exec_modes` (__init__.py:547-552). -/
def modes (k : Kw) : Nat := k.isAsync.toNat + k.compute.toNat + k.on.isSome.toNat

/-- `Scheduler.add(Node(...))` (__init__.py:526-552, 1149-1176; scheduler.rs:419-599, 629-712). -/
def add (k : Kw) : Except Err Reg :=
  if k.rate ≤ 0 then .error .value
  else if modes k > 1 then .error .value
  else if k.budget.any (· ≤ 0) then .error .runtime
  else if k.budget.any (1 < ·) then .error .value
  else if k.deadline.any (· ≤ 0) then .error .runtime
  else if k.deadline.any (5 < ·) then .error .value
  else if k.failure.any (fun s => (failureOf s).isNone) then .error .runtime
  else if k.watchdog.any (· ≤ 0) then .error .runtime
  else if k.onMiss.any (fun s => (missOf s).isNone) then .error .runtime
  else match build (calls k (k.onMiss.bind missOf) (k.failure.bind failureOf)) with
    | .ok r => .ok r
    | .error _ => .error .runtime

/-! ### Specification -/

/-- The execution class a node asks for, if it asks for one. -/
def wants (k : Kw) : Option Cls :=
  if k.isAsync then some .asyncIo else if k.compute then some .compute else match k.on with | some t => if t = "" then none else some (.event t) | none => none

/-- The arguments that are meant to be accepted. -/
structure Fine (k : Kw) : Prop where
  rate : 0 < k.rate
  one : modes k ≤ 1
  budget : ∀ b, k.budget = some b → 0 < b ∧ b ≤ 1
  deadline : ∀ d, k.deadline = some d → 0 < d ∧ d ≤ 5
  failure : ∀ s, k.failure = some s → s ∈ ["fatal", "restart", "skip", "ignore"]
  miss : ∀ s, k.onMiss = some s → s ∈ ["warn", "skip", "safe_mode", "safemode", "stop"]
  watchdog : ∀ w, k.watchdog = some w → 0 < w
  untimed : wants k ≠ none → k.budget = none ∧ k.deadline = none
  /-- A timed node's limits last at least a nanosecond. -/
  nonzero : wants k = none → (k.budget.map toNs).getD (budgetDefault k.rate) ≠ 0 ∧ (k.deadline.map toNs).getD (deadlineDefault k.rate) ≠ 0

/-! ### Proof -/

/-- The registration before `finalize`. -/
def given (k : Kw) (miss failure : Option Nat) : Reg :=
  { Reg.new with
    order := k.order
    rate := some k.rate
    missPolicy := miss.getD 0
    failurePolicy := failure
    cls := (wants k).getD .bestEffort
    budget := k.budget.map toNs
    deadline := k.deadline.map toNs
    prio := k.priority
    core := k.core
    watchdog := k.watchdog.map toNs }

theorem calls_given (k : Kw) (m f : Option Nat) : (calls k m f).foldl apply .new = given k m f := by
  obtain ⟨rate, order, b, d, om, fa, co, on, isA, p, c, w⟩ := k
  have hcls : ∀ r : Reg, r.cls = .bestEffort → (classCalls ⟨rate, order, b, d, om, fa, co, on, isA, p, c, w⟩).foldl apply r = { r with cls := (wants ⟨rate, order, b, d, om, fa, co, on, isA, p, c, w⟩).getD .bestEffort } := by
    intro r hr
    unfold classCalls wants
    cases isA
    · cases co
      · cases on with
        | none => dsimp only; simp only [Bool.false_eq_true, if_false, List.foldl_nil, Option.getD_none]; rw [← hr]
        | some t =>
          dsimp only
          simp only [Bool.false_eq_true, if_false]
          by_cases ht : t = ""
          · simp only [if_pos ht, List.foldl_nil, Option.getD_none]; rw [← hr]
          · simp only [if_neg ht]; rfl
      · rfl
    · rfl
  unfold calls
  simp only [List.foldl_append]
  rw [hcls _ (by cases m <;> cases f <;> rfl)]
  unfold given
  dsimp only
  generalize (wants _).getD Cls.bestEffort = q
  cases m <;> cases f <;> cases b <;> cases d <;> cases p <;> cases c <;> cases w <;> rfl

theorem missOf_some (s : String) : (missOf s).isNone = false ↔ s ∈ ["warn", "skip", "safe_mode", "safemode", "stop"] := by
  unfold missOf
  simp only [List.mem_cons, List.not_mem_nil, or_false]
  split
  · simp_all
  · split
    · simp_all
    · split
      · rename_i h; rcases h with h | h <;> simp [h]
      · split
        · simp_all
        · simp_all

theorem failureOf_some (s : String) : (failureOf s).isNone = false ↔ s ∈ ["fatal", "restart", "skip", "ignore"] := by
  unfold failureOf
  simp only [List.mem_cons, List.not_mem_nil, or_false]
  split
  · simp_all
  · split
    · simp_all
    · split
      · simp_all
      · split
        · simp_all
        · simp_all

theorem any_not {α : Type} (o : Option α) (p : α → Bool) : ¬ (o.any p = true) ↔ ∀ x, o = some x → p x = false := by
  cases o <;> simp

theorem wants_class (k : Kw) : wants k ≠ some .bestEffort ∧ wants k ≠ some .rt ∧ wants k ≠ some (.event "") := by
  unfold wants
  refine ⟨?_, ?_, ?_⟩ <;> (split <;> [simp; (split <;> [simp; (split <;> [(split <;> simp_all); simp])])])

/-- What `build` makes of it. -/
theorem build_given (k : Kw) (m f : Option Nat) (hr : 0 < k.rate) :
    build (calls k m f) =
      match wants k with
      | some c => if k.budget.isSome ∨ k.deadline.isSome then
            build (calls k m f)
          else .ok { given k m f with cls := c }
      | none => if (k.deadline.map toNs).getD (deadlineDefault k.rate) = 0 then .error .zeroDeadline
          else if (k.budget.map toNs).getD (budgetDefault k.rate) = 0 then .error .zeroBudget
          else .ok { given k m f with cls := .rt, isRt := true, budget := some ((k.budget.map toNs).getD (budgetDefault k.rate)), deadline := some ((k.deadline.map toNs).getD (deadlineDefault k.rate)), deadlineAuto := k.deadline.isNone } := by
  obtain ⟨hb, hrt, hev⟩ := wants_class k
  have hr' : ¬ k.rate ≤ 0 := not_le.2 hr
  cases hw : wants k with
  | some c =>
    dsimp only
    split
    · rfl
    · rename_i hn
      have hbud : k.budget = none := by
        cases h : k.budget with
        | none => rfl
        | some x => exact absurd (Or.inl (by rw [h]; rfl)) hn
      have hdl : k.deadline = none := by
        cases h : k.deadline with
        | none => rfl
        | some x => exact absurd (Or.inr (by rw [h]; rfl)) hn
      rw [hw] at hb hrt hev
      have h1 : c ≠ .bestEffort := fun h => hb (by rw [h])
      have h2 : c ≠ .rt := fun h => hrt (by rw [h])
      have h3 : c ≠ .event "" := fun h => hev (by rw [h])
      unfold build
      rw [calls_given]
      have hg : given k m f = { given k m f with cls := c } := by unfold given; rw [hw]; rfl
      have hfin : finalize (given k m f) = given k m f := by
        rw [hg]
        unfold finalize Builder.promote Builder.fromBudget Builder.fromRate given
        simp [Reg.new, hbud, hdl, h1]
      rw [hfin]
      have hc : check (given k m f) = none := by
        rw [hg]
        unfold check given
        simp [Reg.new, hbud, hdl, h1, h3, hr']
      dsimp only
      rw [hc, ← hg]
  | none =>
    dsimp only
    unfold build
    rw [calls_given]
    have hfin : finalize (given k m f) = { given k m f with cls := .rt, isRt := true, budget := some ((k.budget.map toNs).getD (budgetDefault k.rate)), deadline := some ((k.deadline.map toNs).getD (deadlineDefault k.rate)), deadlineAuto := k.deadline.isNone } := by
      unfold finalize Builder.promote Builder.fromBudget Builder.fromRate given
      rw [hw]
      simp [Reg.new]
    dsimp only
    rw [hfin]
    unfold check given
    simp only [Reg.new]
    by_cases hd : (k.deadline.map toNs).getD (deadlineDefault k.rate) = 0
    · simp [hd, hr']
    · by_cases hbz : (k.budget.map toNs).getD (budgetDefault k.rate) = 0
      · simp [hd, hbz, hr']
      · simp [hd, hbz, hr']

/-- An explicit class with a budget or a deadline is refused. -/
theorem build_refused (k : Kw) (m f : Option Nat) (c : Cls) (hw : wants k = some c) (h : k.budget.isSome ∨ k.deadline.isSome) : ∀ r, build (calls k m f) ≠ .ok r := by
  intro r hr
  obtain ⟨hb, hrt, hev⟩ := wants_class k
  rw [hw] at hb hrt hev
  have h1 : c ≠ .bestEffort := fun h => hb (by rw [h])
  have hg : given k m f = { given k m f with cls := c } := by unfold given; rw [hw]; rfl
  have := Builder.finalize_explicit (given k m f) rfl (by rw [hg]; exact h1)
  unfold build at hr
  rw [calls_given] at hr
  dsimp only at hr
  split at hr
  · cases hr
  · rename_i hc
    unfold check at hc
    have hrt' : (finalize (given k m f)).isRt = false := by rw [this]; rfl
    have hbd : (finalize (given k m f)).budget.isSome ∨ (finalize (given k m f)).deadline.isSome := by
      rw [this]
      dsimp only [given]
      rcases h with h | h
      · left
        cases hk : k.budget with
        | none => rw [hk] at h; cases h
        | some x => rfl
      · right
        cases hk : k.deadline with
        | none => rw [hk] at h; cases h
        | some x => cases k.budget <;> rfl
    split_ifs at hc with a1 a2 a3 a4 a5 a6 a7 a8
    exact a8 ⟨hrt', hbd⟩

/-- **A Python node is accepted exactly when its arguments are fine.** -/
theorem accepted_iff (k : Kw) : (∃ r, add k = .ok r) ↔ Fine k := by
  constructor
  · rintro ⟨r, h⟩
    unfold add at h
    split_ifs at h with h1 h2 h3 h4 h5 h6 h7 h8 h9
    rw [any_not] at h3 h4 h5 h6 h7 h8 h9
    have hr : 0 < k.rate := not_le.1 h1
    have hbuild : ∃ r, build (calls k (k.onMiss.bind missOf) (k.failure.bind failureOf)) = .ok r := by
      split at h
      · rename_i r' hb; exact ⟨r', hb⟩
      · cases h
    obtain ⟨r', hb⟩ := hbuild
    have hunt : wants k ≠ none → k.budget = none ∧ k.deadline = none := by
      intro hw
      cases hw' : wants k with
      | none => exact absurd hw' hw
      | some c =>
        constructor
        · cases hk : k.budget with
          | none => rfl
          | some x => exact absurd hb (build_refused k _ _ c hw' (Or.inl (by rw [hk]; rfl)) r')
        · cases hk : k.deadline with
          | none => rfl
          | some x => exact absurd hb (build_refused k _ _ c hw' (Or.inr (by rw [hk]; rfl)) r')
    refine ⟨hr, by omega, ?_, ?_, ?_, ?_, ?_, hunt, ?_⟩
    · intro b hbb
      have p1 := h3 b hbb
      have p2 := h4 b hbb
      simp at p1 p2
      exact ⟨p1, p2⟩
    · intro d hd
      have p1 := h5 d hd
      have p2 := h6 d hd
      simp at p1 p2
      exact ⟨p1, p2⟩
    · intro s hs; exact (failureOf_some s).1 (h7 s hs)
    · intro s hs; exact (missOf_some s).1 (h9 s hs)
    · intro w hw
      have p1 := h8 w hw
      simp at p1
      exact p1
    · intro hw
      rw [build_given k _ _ hr, hw] at hb
      dsimp only at hb
      split_ifs at hb with z1 z2
      exact ⟨z2, z1⟩
  · intro h
    unfold add
    rw [if_neg (not_le.2 h.rate), if_neg (by have := h.one; omega)]
    rw [if_neg ((any_not _ _).2 fun x hx => by have := h.budget x hx; simpa using this.1),
      if_neg ((any_not _ _).2 fun x hx => by have := h.budget x hx; simpa using this.2),
      if_neg ((any_not _ _).2 fun x hx => by have := h.deadline x hx; simpa using this.1),
      if_neg ((any_not _ _).2 fun x hx => by have := h.deadline x hx; simpa using this.2),
      if_neg ((any_not _ _).2 fun x hx => (failureOf_some x).2 (h.failure x hx)),
      if_neg ((any_not _ _).2 fun x hx => by have := h.watchdog x hx; simpa using this),
      if_neg ((any_not _ _).2 fun x hx => (missOf_some x).2 (h.miss x hx))]
    rw [build_given k _ _ h.rate]
    cases hw : wants k with
    | some c =>
      dsimp only
      obtain ⟨e1, e2⟩ := h.untimed (by rw [hw]; simp)
      rw [if_neg (by rw [e1, e2]; simp)]
      exact ⟨_, rfl⟩
    | none =>
      dsimp only
      obtain ⟨e1, e2⟩ := h.nonzero hw
      rw [if_neg e2, if_neg e1]
      exact ⟨_, rfl⟩

/-- **An accepted Python node runs as it was asked to**: everything given arrives; without a class it is a real-time node, with the limits given or those
that follow from its rate. -/
theorem as_asked (k : Kw) (r : Reg) (h : add k = .ok r) :
    r.order = k.order ∧ r.rate = some k.rate ∧ r.prio = k.priority ∧ r.core = k.core ∧ r.watchdog = k.watchdog.map toNs ∧
    r.missPolicy = (k.onMiss.bind missOf).getD 0 ∧ r.failurePolicy = k.failure.bind failureOf ∧ r.cls = (wants k).getD .rt ∧
    (wants k = none → r.budget = some ((k.budget.map toNs).getD (budgetDefault k.rate)) ∧ r.deadline = some ((k.deadline.map toNs).getD (deadlineDefault k.rate))) ∧
    (wants k ≠ none → r.budget = none ∧ r.deadline = none) := by
  have hf := (accepted_iff k).1 ⟨r, h⟩
  unfold add at h
  split_ifs at h with h1 h2 h3 h4 h5 h6 h7 h8 h9
  rw [build_given k _ _ hf.rate] at h
  cases hw : wants k with
  | some c =>
    rw [hw] at h
    dsimp only at h
    obtain ⟨e1, e2⟩ := hf.untimed (by rw [hw]; simp)
    rw [if_neg (by rw [e1, e2]; simp)] at h
    cases h
    refine ⟨rfl, rfl, rfl, rfl, rfl, rfl, rfl, rfl, by simp, fun _ => ⟨?_, ?_⟩⟩
    · dsimp only [given]; rw [e1]; rfl
    · dsimp only [given]; rw [e2]; rfl
  | none =>
    rw [hw] at h
    dsimp only at h
    obtain ⟨e1, e2⟩ := hf.nonzero hw
    rw [if_neg e2, if_neg e1] at h
    cases h
    exact ⟨rfl, rfl, rfl, rfl, rfl, rfl, rfl, rfl, fun _ => ⟨rfl, rfl⟩, by simp⟩

/-- A fine node with a class, and one that is timed. -/
example : Fine { compute := true, failure := some "restart" } where
  rate := by norm_num
  one := by decide
  budget := by intro b h; cases h
  deadline := by intro b h; cases h
  failure := by intro s h; cases h; decide
  miss := by intro s h; cases h
  watchdog := by intro s h; cases h
  untimed := fun _ => ⟨rfl, rfl⟩
  nonzero := by intro h; cases h

/-- **Disagreement: `on=""` is not refused**: the node becomes a real-time node of its own rate (30 per second unless given), although Rust refuses an empty
topic. -/
theorem empty_topic (r : Reg) (k : Kw) (hon : k.on = some "") (h : add k = .ok r) : r.cls = .rt := by
  have hf := (accepted_iff k).1 ⟨r, h⟩
  have := hf.one
  have hc : k.isAsync = false ∧ k.compute = false := by
    unfold modes at this
    rw [hon] at this
    cases h1 : k.isAsync <;> cases h2 : k.compute <;> simp [h1, h2] at this ⊢
  have hw : wants k = none := by unfold wants; rw [hc.1, hc.2, hon]; simp
  have := (as_asked k r h).2.2.2.2.2.2.2.1
  rw [this, hw]
  rfl

/-! ### Callbacks -/

/-- An exception: `TypeError`, `KeyboardInterrupt` (not an `Exception`), or another. -/
inductive Exn
  | typeError (n : Nat)
  | keyboard
  | other (n : Nat)
  deriving DecidableEq

/-- Python code acting on a world. -/
abbrev Py (σ : Type) := σ → Except Exn Unit × σ

variable {σ : Type}

/-- `Node._run_tick_with_error_handling` (__init__.py:856-882). -/
def nodeTick (body : Py σ) (onError : Option (Exn → Py σ)) : Py σ := fun s =>
  match body s with
  | (.ok _, s1) => (.ok (), s1)
  | (.error .keyboard, s1) => (.error .keyboard, s1)
  | (.error e, s1) =>
    match onError with
    | none => (.error e, s1)
    | some h =>
      match h e s1 with
      | (.ok _, s2) => (.error e, s2)
      | (.error .keyboard, s2) => (.error .keyboard, s2)
      | (.error _, s2) => (.error e, s2)

/-- What the adapter makes of a call. -/
inductive Out
  | skipped
  | recorded
  | interrupted
  | failed (e : Exn)
  deriving DecidableEq

def outOf : Except Exn Unit → Out
  | .ok _ => .recorded
  | .error .keyboard => .interrupted
  | .error e => .failed e

/-- `call_method1(m, (info,))`, and again without arguments after a `TypeError` (scheduler.rs:137-148, 203-212, 294-303). -/
def invoke (m : Py σ) : Py σ := fun s =>
  match m s with
  | (.error (.typeError _), s1) => m s1
  | r => r

/-- `PyNodeAdapter::tick` (scheduler.rs:167-242). -/
def tick (stop : Bool) (body : Py σ) (onError : Option (Exn → Py σ)) (s : σ) : Out × σ :=
  if stop then (.skipped, s)
  else
    let r := invoke (nodeTick body onError) s
    (outOf r.1, r.2)

/-- Counting the runs of a callback. -/
def counted (body : Py σ) : Py (σ × Nat) := fun s => let r := body s.1; (r.1, (r.2, s.2 + 1))

/-- `on_error` in a world with a counter. -/
def lifted (h : Exn → Py σ) : Exn → Py (σ × Nat) := fun e s => let r := h e s.1; (r.1, (r.2, s.2))

/-- **A callback is run once at a tick, and what it raises reaches the failure policy**, unless it raises `TypeError`. -/
theorem once_partial (body : Py σ) (s : σ) (h : ∀ n, (body s).1 ≠ .error (.typeError n)) :
    tick false body none s = (outOf (body s).1, (body s).2) := by
  unfold tick invoke nodeTick
  rcases hb : body s with ⟨_ | e, s1⟩
  · cases ‹Exn› with
    | typeError n => exact absurd (by rw [hb]) (h n)
    | keyboard => simp
    | other n => simp
  · simp

theorem runs_once_partial (body : Py σ) (onError : Option (Exn → Py σ)) (s : σ) (k : Nat) (h : ∀ n, (body s).1 ≠ .error (.typeError n)) :
    (tick false (counted body) (onError.map lifted) (s, k)).2.2 = k + 1 := by
  unfold tick invoke nodeTick counted lifted
  rcases hb : body s with ⟨_ | e, s1⟩
  · cases ‹Exn› with
    | typeError n => exact absurd (by rw [hb]) (h n)
    | keyboard => simp [hb]
    | other n =>
      cases onError with
      | none => simp [hb]
      | some g =>
        rcases hg : g (.other n) s1 with ⟨_ | _, s2⟩
        · rename_i e2; cases e2 <;> simp [hb, hg]
        · simp [hb, hg]
  · simp [hb]

example (n : Nat) : (((fun s => (Except.error (Exn.other 3), s + 1)) : Py Nat) 0).1 ≠ .error (.typeError n) := by intro h; cases h

/-- **`on_error` is told and cannot hide the error**: with any handler that does not itself interrupt, the tick still fails with the callback's own error,
and the handler has run. -/
theorem handler_notifies (body : Py σ) (g : Exn → Py σ) (s s1 : σ) (n : Nat) (h : body s = (.error (.other n), s1)) (hk : (g (.other n) s1).1 ≠ .error .keyboard) :
    tick false body (some g) s = (.failed (.other n), (g (.other n) s1).2) := by
  unfold tick invoke nodeTick
  rw [h]
  rcases hg : g (.other n) s1 with ⟨_ | _, s2⟩
  · rename_i e2
    cases e2 with
    | keyboard => exact absurd (by rw [hg]) hk
    | typeError m => simp [outOf, hg]
    | other m => simp [outOf, hg]
  · simp [outOf, hg]

/-- **After a request to stop nothing is run.** -/
theorem stopped_skips (body : Py σ) (onError : Option (Exn → Py σ)) (s : σ) : tick true body onError s = (.skipped, s) := rfl

/-- **Disagreement: a callback that raises `TypeError` is run a second time**, on the state its first run left. -/
theorem type_error_twice (body : Py σ) (s s1 : σ) (n k : Nat) (h : body s = (.error (.typeError n), s1)) :
    tick false body none s = (outOf (body s1).1, (body s1).2) ∧ (tick false (counted body) none (s, k)).2.2 = k + 2 := by
  constructor
  · unfold tick invoke nodeTick
    rw [h]
    dsimp only
    rcases hb : body s1 with ⟨_ | e, s2⟩
    · rename_i e; cases e <;> simp [outOf, hb]
    · simp [outOf, hb]
  · unfold tick invoke nodeTick counted
    simp only [h]
    rcases hb : body s1 with ⟨_ | e, s2⟩
    · rename_i e; cases e <;> simp [hb]
    · simp [hb]

/-- **and if the second run succeeds the failure is not seen by anything**: here a callback that sends, and then fails every other time. -/
theorem type_error_hidden : tick false (show Py Nat from fun sent => if sent % 2 = 0 then (.error (.typeError 0), sent + 1) else (.ok (), sent + 1)) none 0 = (.recorded, 2) := by
  rfl

/-- The flags shared by the nodes of a scheduler (scheduler.rs:85-92). -/
structure Flags where
  stop : Bool
  running : Bool
  deriving DecidableEq

/-- `init` (scheduler.rs:124-165): the flags after it, and whether it failed. -/
def afterInit (f : Flags) (r : Except Exn Unit) : Flags × Bool :=
  match r with
  | .ok _ => (f, false)
  | .error .keyboard => ({ f with stop := true }, false)
  | .error _ => (f, true)

/-- `tick`'s effect on the flags (scheduler.rs:222-227). -/
def afterTick (f : Flags) : Out → Flags
  | .interrupted => { stop := true, running := false }
  | _ => f

/-- **An interrupt during a tick ends the run; no other outcome does.** -/
theorem interrupt_ends (f : Flags) (o : Out) (h : f.running = true) : (afterTick f o).running = false ↔ o = .interrupted := by
  cases o <;> simp [afterTick, h]

/-- **Disagreement: an interrupt during `init` does not end the run**: the scheduler goes on, and every Python node is skipped for ever. -/
theorem init_interrupt (f : Flags) (h : f.running = true) (body : Py σ) (s : σ) :
    (afterInit f (.error .keyboard)).1.running = true ∧ (afterInit f (.error .keyboard)).2 = false ∧ (tick (afterInit f (.error .keyboard)).1.stop body none s) = (.skipped, s) :=
  ⟨h, rfl, rfl⟩

/-- The deadline-miss policies in the order of `Miss` (rt_node.rs:20-40), each with the names Python accepts for it. -/
def missNames : List (List String) := [["warn"], ["skip"], ["safe_mode", "safemode"], ["stop"]]

/-- The failure policies, each with its name. -/
def failureNames : List String := ["fatal", "restart", "skip", "ignore"]

/-- **A policy given by name is the one that has that name.** -/
theorem policy_meaning (s : String) (n : Nat) :
    (missOf s = some n ↔ ∃ names, missNames[n]? = some names ∧ s ∈ names) ∧ (failureOf s = some n ↔ failureNames[n]? = some s) := by
  constructor
  · unfold missOf missNames
    constructor
    · intro h
      split_ifs at h with h1 h2 h3 h4
      · cases h; exact ⟨_, rfl, by simp [h1]⟩
      · cases h; exact ⟨_, rfl, by simp [h2]⟩
      · cases h; exact ⟨_, rfl, by simpa using h3⟩
      · cases h; exact ⟨_, rfl, by simp [h4]⟩
    · rintro ⟨l, hl, hs⟩
      match n, hl with
      | 0, hl => cases hl; rw [List.mem_singleton] at hs; subst hs; rfl
      | 1, hl => cases hl; rw [List.mem_singleton] at hs; subst hs; rfl
      | 2, hl =>
        cases hl
        simp only [List.mem_cons, List.not_mem_nil, or_false] at hs
        rcases hs with hs | hs <;> subst hs <;> rfl
      | 3, hl => cases hl; rw [List.mem_singleton] at hs; subst hs; rfl
      | _ + 4, hl => simp at hl
  · unfold failureOf failureNames
    constructor
    · intro h
      split_ifs at h with h1 h2 h3 h4
      · cases h; subst h1; rfl
      · cases h; subst h2; rfl
      · cases h; subst h3; rfl
      · cases h; subst h4; rfl
    · intro hl
      match n, hl with
      | 0, hl => cases hl; rfl
      | 1, hl => cases hl; rfl
      | 2, hl => cases hl; rfl
      | 3, hl => cases hl; rfl
      | _ + 4, hl => simp at hl

/-- **Durations are seconds**: a whole number of nanoseconds arrives exactly, and any other is off by at most half a nanosecond. -/
theorem seconds_exact (n : Nat) : toNs ((n : Rat) / 1000000000) = n := by
  unfold toNs
  rw [div_mul_cancel₀ _ (by norm_num)]
  rw [round_natCast]
  rfl

theorem seconds_near (s : Rat) (h : 0 ≤ s) : |s - (toNs s : Rat) / 1000000000| ≤ 1 / 2000000000 := by
  have h0 : 0 ≤ round (s * 1000000000) := by
    rw [round_eq]
    exact Int.floor_nonneg.2 (by linarith)
  have h1 : ((toNs s : Nat) : Rat) = ((round (s * 1000000000) : Int) : Rat) := by
    unfold toNs
    conv_rhs => rw [← Int.toNat_of_nonneg h0]
    norm_cast
  have h2 := abs_sub_round (s * 1000000000)
  rw [h1]
  rw [abs_le] at h2 ⊢
  constructor <;> linarith [h2.1, h2.2]

example : missOf "stop" = some 3 ∧ toNs (1 / 1000) = 1000000 := by
  refine ⟨by decide, ?_⟩
  have h := seconds_exact 1000000
  norm_num at h
  norm_num
  exact h

end Horus.PyNode
