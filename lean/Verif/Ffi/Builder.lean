import Verif.Build.Builder
import Mathlib.Algebra.Order.Floor.Ring
import Mathlib.Data.Rat.Floor
/-
Nodes built from C++. Source: /repo/horus_cpp/src/node_ffi.rs:37-139 (`CppNode`), 144-320 (builder), types_ffi.rs (`NodeConfig`),
/repo/horus_cpp/include/horus/impl/scheduler_impl.hpp:162-392. What is built is compared with what the Rust builder of Verif/Build/Builder.lean makes of the
same calls. Durations of C++ are microseconds; a rate is an exact rational.
-/
namespace Horus.CppBuilder
open Horus.Builder (Reg Call Cls Refusal apply build)

/-- The calls of the C++ `NodeBuilder` (scheduler_impl.hpp:169-230). -/
inductive CCall
  | rate (hz : Rat)
  | budget (us : Nat)
  | deadline (us : Nat)
  | onMiss (p : Nat)
  | compute
  | asyncIo
  | on (topic : String)
  | order (n : Nat)
  | pinCore (c : Nat)
  | priority (p : Int)
  | watchdog (us : Nat)

/-- `NodeConfig` (types_ffi.rs), without callbacks. -/
structure Config where
  rate : Option Rat
  budget : Option Nat
  deadline : Option Nat
  miss : Nat
  cls : Nat
  topic : Option String
  order : Nat
  core : Option Nat
  prio : Option Int
  watchdog : Option Nat

def Config.new : Config := ⟨none, none, none, 0, 0, none, 0, none, none, none⟩

/-- node_ffi.rs:153-206. -/
def record (c : Config) : CCall → Config
  | .rate hz => { c with rate := some hz }
  | .budget us => { c with budget := some us }
  | .deadline us => { c with deadline := some us }
  | .onMiss p => { c with miss := p }
  | .compute => { c with cls := 2 }
  | .asyncIo => { c with cls := 4 }
  | .on t => { c with cls := 3, topic := some t }
  | .order n => { c with order := n }
  | .pinCore n => { c with core := some n }
  | .priority p => { c with prio := some p }
  | .watchdog us => { c with watchdog := some us }

/-- `hz as u64` for values below 2^64: negative numbers become 0. -/
def toU64 (q : Rat) : Nat := ⌊q⌋.toNat

/-- node_ffi.rs:285-291. -/
def missOf (p : Nat) : Nat := if p ≤ 3 then p else 0

/-- node_ffi.rs:295-304. -/
def classCalls (cls : Nat) (topic : Option String) : List Call :=
  if cls = 2 then [.compute] else if cls = 3 then (match topic with | some t => [.on t] | none => []) else if cls = 4 then [.asyncIo] else []

/-- The Rust calls made (node_ffi.rs:274-316). -/
def rustCalls (c : Config) : List Call :=
  (match c.rate with | some hz => [.rate (toU64 hz)] | none => []) ++
  (match c.budget with | some us => [.budget (us * 1000)] | none => []) ++
  (match c.deadline with | some us => [.deadline (us * 1000)] | none => []) ++
  [.onMiss (missOf c.miss)] ++ classCalls c.cls c.topic ++ [.order c.order] ++
  (match c.core with | some n => [.core n] | none => []) ++
  (match c.prio with | some p => [.priority p] | none => []) ++
  (match c.watchdog with | some us => [.watchdog (us * 1000)] | none => [])

/-- node_ffi.rs:243-320. `none`: `hz()` panics on zero (duration_ext.rs:143-146), and a panic in a function called from C ends the process. -/
def cppBuild (calls : List CCall) : Option (Except Refusal Reg) :=
  let c := calls.foldl record .new
  if c.rate.map toU64 = some 0 then none else some (build (rustCalls c))

/-! ### Specification -/

/-- The same call in Rust. -/
def same : CCall → Call
  | .rate hz => .rate hz
  | .budget us => .budget (us * 1000)
  | .deadline us => .deadline (us * 1000)
  | .onMiss p => .onMiss p
  | .compute => .compute
  | .asyncIo => .asyncIo
  | .on t => .on t
  | .order n => .order n
  | .pinCore c => .core c
  | .priority p => .priority p
  | .watchdog us => .watchdog (us * 1000)

/-- A whole number of hertz, a policy there is. -/
def Whole : CCall → Prop
  | .rate hz => ∃ n : Nat, 0 < n ∧ hz = n
  | .onMiss p => p ≤ 3
  | _ => True

/-! ### Proof -/

/-- The registration a configuration stands for. -/
def abs (c : Config) : Reg :=
  { Reg.new with
    order := c.order
    rate := c.rate.map fun hz => (toU64 hz : Rat)
    budget := c.budget.map (· * 1000)
    deadline := c.deadline.map (· * 1000)
    cls := if c.cls = 2 then .compute else if c.cls = 3 then (match c.topic with | some t => .event t | none => .bestEffort) else if c.cls = 4 then .asyncIo else .bestEffort
    prio := c.prio
    core := c.core
    watchdog := c.watchdog.map (· * 1000)
    missPolicy := missOf c.miss }

theorem rust_abs (c : Config) : (rustCalls c).foldl apply .new = abs c := by
  obtain ⟨rate, b, d, m, cls, t, o, co, p, w⟩ := c
  unfold rustCalls abs classCalls
  simp only [List.foldl_append]
  by_cases h2 : cls = 2
  · subst h2
    cases rate <;> cases b <;> cases d <;> cases co <;> cases p <;> cases w <;> rfl
  · by_cases h3 : cls = 3
    · subst h3
      cases t <;> cases rate <;> cases b <;> cases d <;> cases co <;> cases p <;> cases w <;> rfl
    · by_cases h4 : cls = 4
      · subst h4
        cases rate <;> cases b <;> cases d <;> cases co <;> cases p <;> cases w <;> rfl
      · simp only [if_neg h2, if_neg h3, if_neg h4]
        cases rate <;> cases b <;> cases d <;> cases co <;> cases p <;> cases w <;> rfl

/-- What a C++ call amounts to. -/
def actual : CCall → Call
  | .rate hz => .rate (toU64 hz)
  | .onMiss p => .onMiss (missOf p)
  | c => same c

theorem abs_record (c : Config) (x : CCall) : abs (record c x) = apply (abs c) (actual x) := by
  cases x <;> rfl

theorem abs_calls (calls : List CCall) : abs (calls.foldl record .new) = (calls.map actual).foldl apply .new := by
  have h : ∀ (l : List CCall) (c : Config), abs (l.foldl record c) = (l.map actual).foldl apply (abs c) := by
    intro l
    induction l with
    | nil => intro c; rfl
    | cons x r ih => intro c; simp only [List.foldl_cons, List.map_cons]; rw [ih, abs_record]
  exact h calls .new

/-- The last rate asked for. -/
def lastRate (calls : List CCall) : Option Rat := (calls.filterMap fun c => match c with | .rate hz => some hz | _ => none).getLast?

theorem rate_last (calls : List CCall) : (calls.foldl record .new).rate = lastRate calls := by
  induction calls using List.reverseRecOn with
  | nil => rfl
  | append_singleton l x ih =>
    rw [List.foldl_append]
    unfold lastRate at *
    rw [List.filterMap_append]
    cases x <;> simp_all [record]

/-- **What C++ builds, in all cases**: the node Rust makes of the same calls with rates cut to whole numbers and unknown policies taken as `Warn`; the
process ends if the last rate is below one hertz. -/
theorem built (calls : List CCall) : cppBuild calls = if (lastRate calls).map toU64 = some 0 then none else some (build (calls.map actual)) := by
  unfold cppBuild
  dsimp only
  rw [rate_last]
  split
  · rfl
  · unfold build
    rw [rust_abs, abs_calls]

theorem actual_same (x : CCall) (h : Whole x) : actual x = same x := by
  cases x with
  | rate hz =>
    obtain ⟨n, _, rfl⟩ := h
    simp [actual, same, toU64]
  | onMiss p => simp only [Whole] at h; simp [actual, same, missOf, h]
  | _ => rfl

theorem lastRate_mem (calls : List CCall) (hz : Rat) (h : lastRate calls = some hz) : CCall.rate hz ∈ calls := by
  unfold lastRate at h
  have := List.mem_of_getLast? h
  rw [List.mem_filterMap] at this
  obtain ⟨c, hc, he⟩ := this
  cases c <;> simp at he
  rw [← he]; exact hc

/-- **With whole rates a C++ node is what the same calls make of a Rust node**: accepted or refused alike, with the same class, order, rate, budget, deadline,
policies, core, priority and watchdog. -/
theorem same_as_rust_partial (calls : List CCall) (h : ∀ x ∈ calls, Whole x) : cppBuild calls = some (build (calls.map same)) := by
  rw [built]
  have hm : calls.map actual = calls.map same := List.map_congr_left fun x hx => actual_same x (h x hx)
  rw [hm, if_neg]
  intro e
  cases hr : lastRate calls with
  | none => rw [hr] at e; cases e
  | some hz =>
    obtain ⟨n, hn, rfl⟩ := h _ (lastRate_mem calls hz hr)
    rw [hr] at e
    simp [toU64] at e
    omega

example : ∀ x ∈ [CCall.rate 100, .budget 500, .onMiss 2, .order 3], Whole x := by
  intro x hx
  simp at hx
  rcases hx with rfl | rfl | rfl | rfl
  · exact ⟨100, by omega, by norm_num⟩
  · trivial
  · show (2 : Nat) ≤ 3; omega
  · trivial

/-- **Disagreement: a node of less than one hertz ends the process.** -/
theorem slow_aborts (hz : Rat) (h : hz < 1) : cppBuild [.rate hz] = none := by
  rw [built]
  have : toU64 hz = 0 := by
    unfold toU64
    have : ⌊hz⌋ < 1 := Int.floor_lt.2 (by exact_mod_cast h)
    omega
  simp [lastRate, this]

/-- **Disagreement: a rate is cut to a whole number**: from 1 hertz on, what runs is slower than what was asked for, by up to half. -/
theorem rate_cut (hz : Rat) (h : 1 ≤ hz) : cppBuild [.rate hz] = some (build [.rate ((⌊hz⌋.toNat : Nat) : Rat)]) := by
  rw [built]
  have : (1 : Int) ≤ ⌊hz⌋ := Int.le_floor.2 (by exact_mod_cast h)
  rw [if_neg]
  · rfl
  · simp [lastRate, toU64]; omega

example : toU64 (2997 / 100) = 29 := by
  unfold toU64
  rw [show ⌊(2997 / 100 : Rat)⌋ = 29 by rw [Int.floor_eq_iff]; norm_num]
  rfl

/-! ### Callbacks -/

/-- The tables of callbacks (scheduler_impl.hpp:256-261) and the nodes that have been built, each with the number of its trampoline. A callback is a number. -/
structure Tables where
  tick : Nat → Option Nat
  next : Nat
  nodes : List (String × Option Nat)

def Tables.new : Tables := ⟨fun _ => none, 0, []⟩

/-- scheduler_impl.hpp:353-390, for the tick callback; `ok`: whether the node is accepted. -/
def register (t : Tables) (name : String) (cb : Option Nat) (ok : Bool) : Except Unit Tables × Tables :=
  match cb with
  | some f =>
    if t.next ≥ 32 then (.error (), { t with next := t.next + 1 })
    else
      let t1 : Tables := { t with tick := fun s => if s = t.next then some f else t.tick s, next := t.next + 1 }
      if ok then (.ok { t1 with nodes := t1.nodes ++ [(name, some t.next)] }, { t1 with nodes := t1.nodes ++ [(name, some t.next)] }) else (.error (), t1)
  | none => if ok then (.ok { t with nodes := t.nodes ++ [(name, none)] }, { t with nodes := t.nodes ++ [(name, none)] }) else (.error (), t)

def registerAll (t : Tables) : List (String × Option Nat × Bool) → Tables
  | [] => t
  | (n, cb, ok) :: r => registerAll (register t n cb ok).2 r

/-- What a node runs at a tick. -/
def runs (t : Tables) (slot : Option Nat) : Option Nat := slot.bind t.tick

/-- The nodes that were built with the callback each was given. -/
def asked (k : Nat) : List (String × Option Nat × Bool) → List (String × Option Nat)
  | [] => []
  | (n, some f, ok) :: r => (if k < 32 ∧ ok = true then [(n, some f)] else []) ++ asked (k + 1) r
  | (n, none, ok) :: r => (if ok = true then [(n, none)] else []) ++ asked k r

theorem register_all (l : List (String × Option Nat × Bool)) : ∀ t : Tables, (∀ x ∈ t.nodes, ∀ s, x.2 = some s → s < t.next) →
    (registerAll t l).nodes.map (fun x => (x.1, runs (registerAll t l) x.2)) = t.nodes.map (fun x => (x.1, runs t x.2)) ++ asked t.next l := by
  induction l with
  | nil => intro t _; simp [registerAll, asked]
  | cons x r ih =>
    obtain ⟨n, cb, ok⟩ := x
    intro t ht
    unfold registerAll
    cases cb with
    | none =>
      unfold register asked
      dsimp only
      cases ok with
      | false => simpa using ih t ht
      | true =>
        simp only [if_true]
        rw [ih _ (by intro x hx s hs; rcases List.mem_append.1 hx with hx | hx; exacts [ht x hx s hs, by simp at hx; subst hx; cases hs])]
        simp [runs]
    | some f =>
      unfold register asked
      dsimp only
      by_cases hk : t.next ≥ 32
      · rw [if_pos hk, if_neg (by omega)]
        dsimp only
        rw [ih _ (by intro x hx s hs; have := ht x hx s hs; dsimp only; omega)]
        simp [runs]
      · have keep : ∀ x ∈ t.nodes, (x.1, runs { tick := fun s => if s = t.next then some f else t.tick s, next := t.next + 1, nodes := t.nodes } x.2) = (x.1, runs t x.2) := by
          intro x hx
          cases hs : x.2 with
          | none => rfl
          | some s =>
            have := ht x hx s hs
            simp only [runs, Option.bind_some]
            rw [if_neg (by omega)]
        rw [if_neg hk]
        cases ok with
        | false =>
          simp only [Bool.false_eq_true, if_false, and_false, List.nil_append]
          rw [ih _ (by intro x hx s hs; have := ht x hx s hs; dsimp only; omega)]
          dsimp only
          rw [List.map_congr_left keep]
        | true =>
          simp only [if_true, and_true]
          rw [if_pos (by omega)]
          rw [ih _ (by
            intro x hx s hs
            dsimp only
            rcases List.mem_append.1 hx with hx | hx
            · have := ht x hx s hs; omega
            · simp only [List.mem_singleton] at hx; subst hx; cases hs; omega)]
          dsimp only
          rw [List.map_append, List.append_assoc]
          congr 1
          · exact List.map_congr_left keep
          · simp [runs]

/-- **Every node runs the callback it was given, and no other's**, for all sequences of nodes. -/
theorem own_callback (l : List (String × Option Nat × Bool)) : (registerAll .new l).nodes.map (fun x => (x.1, runs (registerAll .new l) x.2)) = asked 0 l := by
  have := register_all l .new (by intro x hx; cases hx)
  simpa [Tables.new] using this

example : asked 0 [("a", some 7, true), ("b", none, true), ("c", some 9, true)] = [("a", some 7), ("b", none), ("c", some 9)] := by decide +kernel

/-- **Disagreement: a process can build 32 nodes with callbacks, ever**: refused ones and those of schedulers that are gone count. -/
theorem only_32 (t : Tables) (h : 32 ≤ t.next) (n : String) (f : Nat) (ok : Bool) : (register t n (some f) ok).1 = .error () := by
  unfold register
  dsimp only
  rw [if_pos h]

/-! ### A failing node -/

/-- `CppNode` (node_ffi.rs:37-45): whether it has failed, and how often its callback has run. -/
structure Node where
  failed : Bool
  ran : Nat

/-- node_ffi.rs:92-118. `panics`: whether the callback panics this time. -/
def tick (n : Node) (panics : Bool) : Node :=
  if n.failed then n else ⟨panics, n.ran + 1⟩

/-- **A node whose callback failed is never run again**, and up to then it ran at every tick. -/
theorem failed_stops (n : Node) (l : List Bool) (h : n.failed = false) : (l.foldl tick n).ran = n.ran + (l.takeWhile (· = false)).length + (if true ∈ l then 1 else 0) := by
  have stay : ∀ (l : List Bool) (m : Node), m.failed = true → l.foldl tick m = m := by
    intro l
    induction l with
    | nil => intros; rfl
    | cons x r ih => intro m hm; rw [List.foldl_cons]; have : tick m x = m := by unfold tick; rw [if_pos hm]
                     rw [this]; exact ih m hm
  induction l generalizing n with
  | nil => simp
  | cons x r ih =>
    rw [List.foldl_cons]
    have ht : tick n x = ⟨x, n.ran + 1⟩ := by unfold tick; rw [if_neg (by simp [h])]
    rw [ht]
    cases x with
    | true => rw [stay r _ rfl]; simp
    | false =>
      rw [ih _ rfl]
      simp
      omega

end Horus.CppBuilder
