import Mathlib.Tactic.Common

/-!
`.no_alloc()`: a real-time node that takes memory from the heap is stopped with a panic.

Specification: from the second tick on, a tick of a `.no_alloc()` node either takes no memory or fails; a
failure names the node that ticked; no other node and no code of the scheduler is affected.

Sources: /repo/horus_core/src/memory/rt_allocator.rs, /repo/horus_core/src/scheduling/rt_executor.rs:244-267,
756-825, /repo/horus_core/src/scheduling/scheduler/mod.rs:4360-4413,
/repo/horus_core/src/scheduling/primitives.rs:207-218.

Assumption: `RtAwareAllocator` is the global allocator, and a panic in it unwinds (the contract of
`GlobalAlloc` does not promise that).
-/

namespace Horus.NoAlloc

/-- What the code of a tick does, in order.  `alloc` stands for `alloc`, `alloc_zeroed` and `realloc`;
`remote` is an allocation on another thread the tick waits for; `guard` is `catch_unwind` in the node's own
code. -/
inductive Body
  | done
  | alloc (k : Body)
  | free (k : Body)
  | remote (k : Body)
  | guard (b k : Body)
  deriving DecidableEq, Repr

/-- The thread-local state (rt_allocator.rs:29-37). -/
structure Ctx where
  flag : Bool := false
  name : Option Nat := none
  deriving DecidableEq, Repr

/-- How code ended: the name in the panic message if it panicked, the state, and how often it was given heap
memory. -/
structure Out where
  panic : Option (Option Nat)
  ctx : Ctx
  taken : Nat
  deriving DecidableEq, Repr

/-- Code running on a thread (rt_allocator.rs:99-167): with the flag set an allocation clears the flag and
panics with the stored name; freeing is never checked; other threads have their own flag, which is clear. -/
def exec (c : Ctx) : Body → Out
  | .done => ⟨none, c, 0⟩
  | .alloc k =>
    if c.flag then ⟨some c.name, { c with flag := false }, 0⟩
    else let r := exec c k; { r with taken := r.taken + 1 }
  | .free k => exec c k
  | .remote k => let r := exec c k; { r with taken := r.taken + 1 }
  | .guard b k => let r := exec c b; let s := exec r.ctx k; { s with taken := r.taken + s.taken }

/-- `enter_rt_context` (rt_allocator.rs:44-54). -/
def enter (node : Nat) (_c : Ctx) : Ctx := ⟨true, some node⟩

/-- `leave_rt_context` (rt_allocator.rs:59-63). -/
def leave (_c : Ctx) : Ctx := ⟨false, none⟩

/-- A tick with enforcement on or off (rt_executor.rs:257-267; scheduler/mod.rs:4399-4408).  The tick runs
under `catch_unwind` (primitives.rs:207-218), so `leave` is reached whatever the tick does. -/
def tick (enforce : Bool) (node : Nat) (c : Ctx) (b : Body) : Out :=
  if enforce then let r := exec (enter node c) b; { r with ctx := leave r.ctx }
  else exec c b

/-- One turn of a node in an executor's loop: it ticks, or its failure policy holds the tick back. -/
inductive Turn
  | run (node : Nat) (noAlloc : Bool) (b : Body)
  | held (node : Nat)
  deriving DecidableEq, Repr

/-- The real-time thread: the thread-local state and which nodes are `warmed` (rt_executor.rs:759, 821-825).
A turn that is held back warms the node as well (rt_executor.rs:203-206, 825). -/
def rtTurn (s : Ctx × List Nat) : Turn → (Ctx × List Nat) × Option Out
  | .run n na b => let r := tick (na && s.2.contains n) n s.1 b; ((r.ctx, n :: s.2), some r)
  | .held n => ((s.1, n :: s.2), none)

/-- The main loop: the thread-local state and the ticks each node has recorded, successful or not
(scheduler/mod.rs:4374, 4399, core/node.rs:412-465).  A turn held back records nothing. -/
def mainTurn (s : Ctx × List Nat) : Turn → (Ctx × List Nat) × Option Out
  | .run n na b => let r := tick (na && decide (0 < s.2.count n)) n s.1 b; ((r.ctx, n :: s.2), some r)
  | .held _ => (s, none)

/-- A history. -/
def runTurns (f : Ctx × List Nat → Turn → (Ctx × List Nat) × Option Out) (s : Ctx × List Nat) :
    List Turn → (Ctx × List Nat) × List (Option Out)
  | [] => (s, [])
  | t :: ts => let r := f s t; let q := runTurns f r.1 ts; (q.1, r.2 :: q.2)

/-! ### Specification -/

/-- The code takes memory on its own thread. -/
def Body.allocates : Body → Bool
  | .done => false
  | .alloc _ => true
  | .free k => k.allocates
  | .remote k => k.allocates
  | .guard b k => b.allocates || k.allocates

/-- The node does not catch panics of its own. -/
def Body.plain : Body → Bool
  | .done => true
  | .alloc k => k.plain
  | .free k => k.plain
  | .remote k => k.plain
  | .guard _ _ => false

/-- The node does not use other threads. -/
def Body.local : Body → Bool
  | .done => true
  | .alloc k => k.local
  | .free k => k.local
  | .remote _ => false
  | .guard b k => b.local && k.local

/-- How often the code takes memory when nothing stops it. -/
def Body.allocs : Body → Nat
  | .done => 0
  | .alloc k => k.allocs + 1
  | .free k => k.allocs
  | .remote k => k.allocs + 1
  | .guard b k => b.allocs + k.allocs

/-! ### Proofs -/

theorem exec_clear (c : Ctx) (h : c.flag = false) (b : Body) : exec c b = ⟨none, c, b.allocs⟩ := by
  induction b with
  | done => rfl
  | alloc k ih => rw [exec, if_neg (by rw [h]; decide), ih]; rfl
  | free k ih => rw [exec, ih]; rfl
  | remote k ih => rw [exec, ih]; rfl
  | guard b k ih1 ih2 => rw [exec, ih1]; dsimp only; rw [ih2]; rfl

theorem exec_plain (c : Ctx) (h : c.flag = true) (b : Body) (hp : b.plain = true) :
    (exec c b).panic = (if b.allocates then some c.name else none) := by
  induction b with
  | done => rfl
  | alloc k ih => rw [exec, if_pos h]; rfl
  | free k ih => rw [exec, ih hp]; rfl
  | remote k ih => rw [exec]; exact ih hp
  | guard b k => exact nomatch hp

theorem exec_local (c : Ctx) (h : c.flag = true) (b : Body) (hp : b.plain = true) (hl : b.local = true) :
    (exec c b).taken = 0 := by
  induction b with
  | done => rfl
  | alloc k ih => rw [exec, if_pos h]
  | free k ih => rw [exec, ih hp hl]
  | remote k ih => exact nomatch hl
  | guard b k => exact nomatch hp

theorem exec_silent (c : Ctx) (b : Body) (h : b.allocates = false) : (exec c b).panic = none ∧ (exec c b).ctx = c := by
  induction b generalizing c with
  | done => exact ⟨rfl, rfl⟩
  | alloc k ih => exact nomatch h
  | free k ih => rw [exec]; exact ih c h
  | remote k ih => rw [exec]; exact ih c h
  | guard b k ih1 ih2 =>
    simp only [Body.allocates, Bool.or_eq_false_iff] at h
    rw [exec]
    dsimp only
    rw [(ih1 c h.1).2]
    exact ih2 c h.2

theorem exec_name (c : Ctx) (b : Body) : (exec c b).ctx.name = c.name ∧ ∀ n, (exec c b).panic = some n → n = c.name := by
  induction b generalizing c with
  | done => exact ⟨rfl, nofun⟩
  | alloc k ih =>
    rw [exec]
    by_cases h : c.flag = true
    · rw [if_pos h]; exact ⟨rfl, fun n hn => (Option.some.inj hn).symm⟩
    · rw [if_neg h]; exact ih c
  | free k ih => rw [exec]; exact ih c
  | remote k ih => rw [exec]; exact ih c
  | guard b k ih1 ih2 =>
    rw [exec]
    dsimp only
    have h1 := (ih1 c).1
    have h2 := ih2 (exec c b).ctx
    rw [h1] at h2
    exact h2

/-- **A steady tick that takes memory fails, and only such a tick does.** -/
theorem enforced_partial (n : Nat) (c : Ctx) (b : Body) (hp : b.plain = true) :
    (tick true n c b).panic = (if b.allocates then some (some n) else none) ∧
      (b.local = true → (tick true n c b).taken = 0) := by
  unfold tick
  rw [if_pos rfl]
  exact ⟨exec_plain (enter n c) rfl b hp, exec_local (enter n c) rfl b hp⟩

/-- Whatever the node catches, a tick that takes no memory on its thread does not fail. -/
theorem no_false_alarm (e : Bool) (n : Nat) (c : Ctx) (b : Body) (h : b.allocates = false) : (tick e n c b).panic = none := by
  unfold tick
  cases e with
  | true => rw [if_pos rfl]; exact (exec_silent _ b h).1
  | false => rw [if_neg (by decide)]; exact (exec_silent _ b h).1

/-- The message names the node that ticked. -/
theorem names_node (n : Nat) (c : Ctx) (b : Body) (m : Option Nat) (h : (tick true n c b).panic = some m) : m = some n := by
  unfold tick at h
  rw [if_pos rfl] at h
  exact (exec_name (enter n c) b).2 m h

theorem tick_clean (e : Bool) (n : Nat) (c : Ctx) (h : c = {}) (b : Body) : (tick e n c b).ctx = {} := by
  subst h
  unfold tick
  cases e with
  | true => rw [if_pos rfl]; rfl
  | false => rw [if_neg (by decide), exec_clear _ rfl]

theorem tick_off (n : Nat) (b : Body) : tick false n {} b = ⟨none, {}, b.allocs⟩ := by
  unfold tick
  rw [if_neg (by decide), exec_clear _ rfl]

theorem runTurns_clean (f : Ctx × List Nat → Turn → (Ctx × List Nat) × Option Out)
    (hf : ∀ s t, s.1 = {} → (f s t).1.1 = {}) (s : Ctx × List Nat) (hs : s.1 = {}) (ts : List Turn) :
    (runTurns f s ts).1.1 = {} := by
  induction ts generalizing s with
  | nil => exact hs
  | cons t ts ih => rw [runTurns]; exact ih _ (hf s t hs)

/-- **Between ticks nothing is enforced**: after any history, on either path, the scheduler's own code may take
memory. -/
theorem scheduler_unaffected (w : List Nat) (ts : List Turn) :
    (runTurns rtTurn ({}, w) ts).1.1 = {} ∧ (runTurns mainTurn ({}, w) ts).1.1 = {} := by
  refine ⟨runTurns_clean _ ?_ _ rfl ts, runTurns_clean _ ?_ _ rfl ts⟩
  · intro s t hs
    cases t with
    | run n na b => exact tick_clean _ n s.1 hs b
    | held n => exact hs
  · intro s t hs
    cases t with
    | run n na b => exact tick_clean _ n s.1 hs b
    | held n => exact hs

theorem rt_append (w : List Nat) (pre : List Turn) (t : Turn) (post : List Turn)
    (f : Ctx × List Nat → Turn → (Ctx × List Nat) × Option Out) (s : Ctx × List Nat) :
    (runTurns f s (pre ++ t :: post)).2[pre.length]? = some (f (runTurns f s pre).1 t).2 := by
  induction pre generalizing s with
  | nil => rfl
  | cons p pre ih =>
    simp only [List.cons_append, runTurns, List.length_cons, List.getElem?_cons_succ]
    exact ih (f s p).1

/-- **A node without `.no_alloc()` is never disturbed**, on either path, whatever ticked before it. -/
theorem others_unaffected (w : List Nat) (pre post : List Turn) (n : Nat) (b : Body) :
    (runTurns rtTurn ({}, w) (pre ++ .run n false b :: post)).2[pre.length]? = some (some ⟨none, {}, b.allocs⟩) ∧
    (runTurns mainTurn ({}, w) (pre ++ .run n false b :: post)).2[pre.length]? = some (some ⟨none, {}, b.allocs⟩) := by
  obtain ⟨h1, h2⟩ := scheduler_unaffected w pre
  refine ⟨?_, ?_⟩
  · rw [rt_append w]
    show some (some (tick (false && _) n _ b)) = _
    rw [h1, Bool.false_and, tick_off]
  · rw [rt_append w]
    show some (some (tick (false && _) n _ b)) = _
    rw [h2, Bool.false_and, tick_off]

/-- Nodes that had a turn. -/
def Turn.node : Turn → Nat
  | .run n _ _ => n
  | .held n => n

/-- The node ticked. -/
def Turn.ticked (n : Nat) : Turn → Bool
  | .run m _ _ => m == n
  | .held _ => false

theorem warmed_iff (n : Nat) (ts : List Turn) (s : Ctx × List Nat) :
    n ∈ (runTurns rtTurn s ts).1.2 ↔ n ∈ s.2 ∨ ∃ t ∈ ts, t.node = n := by
  induction ts generalizing s with
  | nil => simp [runTurns]
  | cons t ts ih =>
    rw [runTurns]
    dsimp only
    rw [ih]
    cases t with
    | run m na b => simp only [rtTurn, List.mem_cons, exists_eq_or_imp, Turn.node]; tauto
    | held m => simp only [rtTurn, List.mem_cons, exists_eq_or_imp, Turn.node]; tauto

theorem recorded_iff (n : Nat) (ts : List Turn) (s : Ctx × List Nat) :
    n ∈ (runTurns mainTurn s ts).1.2 ↔ n ∈ s.2 ∨ ∃ t ∈ ts, t.ticked n = true := by
  induction ts generalizing s with
  | nil => simp [runTurns]
  | cons t ts ih =>
    rw [runTurns]
    dsimp only
    rw [ih]
    cases t with
    | run m na b => simp only [mainTurn, List.mem_cons, exists_eq_or_imp, Turn.ticked, beq_iff_eq]; tauto
    | held m => simp only [mainTurn, List.mem_cons, exists_eq_or_imp, Turn.ticked]; tauto

/-- **From the second tick on the real-time thread enforces**: a later turn of a `.no_alloc()` node fails exactly
when it takes memory. -/
theorem rt_steady_partial (pre post : List Turn) (n : Nat) (b : Body) (hp : b.plain = true)
    (h : ∃ t ∈ pre, t.node = n) :
    ∃ o, (runTurns rtTurn ({}, []) (pre ++ .run n true b :: post)).2[pre.length]? = some (some o) ∧
      o.panic = (if b.allocates then some (some n) else none) := by
  rw [rt_append []]
  refine ⟨_, rfl, ?_⟩
  have hc : (runTurns rtTurn ({}, []) pre).1.2.contains n = true := by
    rw [List.contains_iff_mem, warmed_iff]; exact .inr h
  rw [hc]
  exact (enforced_partial n _ b hp).1

/-- **The main loop enforces from the second tick on.** -/
theorem main_steady_partial (pre post : List Turn) (n : Nat) (b : Body) (hp : b.plain = true)
    (h : ∃ t ∈ pre, t.ticked n = true) :
    ∃ o, (runTurns mainTurn ({}, []) (pre ++ .run n true b :: post)).2[pre.length]? = some (some o) ∧
      o.panic = (if b.allocates then some (some n) else none) := by
  rw [rt_append []]
  refine ⟨_, rfl, ?_⟩
  have hc : decide (0 < (runTurns mainTurn ({}, []) pre).1.2.count n) = true := by
    rw [decide_eq_true_eq, List.count_pos_iff, recorded_iff]; exact .inr h
  rw [hc]
  exact (enforced_partial n _ b hp).1

/-- **The first tick may take memory**, on either path. -/
theorem first_tick_free (pre post : List Turn) (n : Nat) (na : Bool) (b : Body) (h : ∀ t ∈ pre, t.node ≠ n) :
    (runTurns rtTurn ({}, []) (pre ++ .run n na b :: post)).2[pre.length]? = some (some ⟨none, {}, b.allocs⟩) ∧
    (runTurns mainTurn ({}, []) (pre ++ .run n na b :: post)).2[pre.length]? = some (some ⟨none, {}, b.allocs⟩) := by
  obtain ⟨h1, h2⟩ := scheduler_unaffected [] pre
  refine ⟨?_, ?_⟩
  · rw [rt_append []]
    have hc : (runTurns rtTurn ({}, []) pre).1.2.contains n = false := by
      rw [← Bool.not_eq_true, List.contains_iff_mem, warmed_iff]
      rintro (hx | ⟨t, ht, e⟩)
      · exact nomatch hx
      · exact h t ht e
    show some (some (tick (na && _) n _ b)) = _
    rw [hc, h1, Bool.and_false, tick_off]
  · rw [rt_append []]
    have hc : ¬ 0 < (runTurns mainTurn ({}, []) pre).1.2.count n := by
      rw [List.count_pos_iff, recorded_iff]
      rintro (hx | ⟨t, ht, e⟩)
      · exact nomatch hx
      · cases t with
        | run m _ _ => exact h _ ht (by simpa [Turn.ticked, Turn.node] using e)
        | held m => exact nomatch e
    show some (some (tick (na && _) n _ b)) = _
    rw [decide_eq_false hc, h2, Bool.and_false, tick_off]

/-- Two nodes, three rounds: the second allocating tick of node 1 fails, node 2 goes on. -/
example : (runTurns rtTurn ({}, []) [.run 1 true (.alloc .done), .run 2 false (.alloc .done), .run 1 true (.free (.alloc .done)),
      .run 2 false (.alloc .done), .run 1 true .done]).2.map (·.map (·.panic)) =
    [some none, some none, some (some (some 1)), some none, some none] := by decide

/-- **A node that catches panics escapes**: the first allocation inside its own `catch_unwind` clears the flag,
and every later allocation of that tick is granted; the tick ends as a success. -/
theorem caught_escapes (n k : Nat) (c : Ctx) :
    (tick true n c (.guard (.alloc .done) (Nat.rec .done (fun _ b => .alloc b) k))).panic = none ∧
    (tick true n c (.guard (.alloc .done) (Nat.rec .done (fun _ b => .alloc b) k))).taken = k := by
  have h : ∀ k : Nat, (Nat.rec .done (fun _ b => .alloc b) k : Body).allocs = k := by
    intro k
    induction k with
    | zero => rfl
    | succ k ih => show Body.allocs _ + 1 = k + 1; rw [ih]
  unfold tick
  rw [if_pos rfl]
  simp only [exec, enter, if_true]
  rw [exec_clear _ rfl, h]
  exact ⟨rfl, Nat.zero_add k⟩

/-- **Allocations on other threads are not seen.** -/
theorem remote_escapes (n : Nat) (c : Ctx) : (tick true n c (.remote .done)).panic = none ∧ (tick true n c (.remote .done)).taken = 1 :=
  ⟨rfl, rfl⟩

/-- **On the real-time thread a tick that was held back counts as the warm-up**: a node whose restart delay is
still running when the thread starts is refused its first real tick; the main loop grants it. -/
theorem held_turn_warms (n : Nat) :
    ((runTurns rtTurn ({}, []) [.held n, .run n true (.alloc .done)]).2.map (·.map (·.panic))) = [none, some (some (some n))] ∧
    ((runTurns mainTurn ({}, []) [.held n, .run n true (.alloc .done)]).2.map (·.map (·.panic))) = [none, some none] := by
  refine ⟨?_, ?_⟩
  · simp [runTurns, rtTurn, tick, exec, enter, leave]
  · simp [runTurns, mainTurn, tick, exec]

end Horus.NoAlloc
