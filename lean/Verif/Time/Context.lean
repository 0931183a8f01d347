import Mathlib.Tactic.Common
import Mathlib.Data.List.Basic
import Mathlib.Data.Nat.ModEq

/-!
What node code sees of time, tick numbers, budgets and random numbers: `horus::now()`, `dt()`,
`elapsed()`, `tick()`, `budget_remaining()` and `rng()` (horus/src/time.rs), which read a thread-local
context that the scheduler installs before each tick and disarms afterwards
(horus_core/src/core/tick_context.rs).

Instants and durations are natural numbers of nanoseconds. The random generator is a parameter: a
seeding function and a step. The hash of the node name is a parameter too. Raw pointers to the clock
are the clock itself (simplification; lifetimes are not modelled).
-/

namespace Horus.TickCtx

/-- 2^64. -/
def u64 : Nat := 2 ^ 64

/-- A random generator (rand's `SmallRng`, an external crate): state, seeding, one draw. -/
structure Gen (σ : Type) where
  seed : Nat → σ
  next : σ → Nat × σ

/-- What the scheduler passes to `set_tick_context` (tick_context.rs:64-72). `clk` gives the reading of
the clock at each real time while the tick runs. -/
structure Args where
  name : String
  tick : Nat
  clk : Nat → Nat
  dt : Nat
  simTime : Nat
  start : Nat
  budget : Option Nat

/-- The thread-local context (tick_context.rs:30-52). -/
structure Ctx (σ : Type) where
  name : String
  tick : Nat
  clock : Option (Nat → Nat)
  dt : Nat
  simTime : Nat
  rng : σ
  start : Nat
  budget : Option Nat

/-- Per-thread state: the context, the epoch of the fallback clock, created on first use
(tick_context.rs:20-25), and the fallback generator, seeded by the operating system on first use
(tick_context.rs:210-213; `osSeed` stands for that seed). -/
structure Thread (σ : Type) where
  ctx : Option (Ctx σ)
  epoch : Option Nat
  fallback : σ

/-- `deterministic_seed` (tick_context.rs:221-228). `h` is the hash of the name. -/
def detSeed (h : String → Nat) (tick : Nat) (name : String) : Nat :=
  (tick * 0x517cc1b727220a95 + h name) % u64

/-- `set_tick_context` (tick_context.rs:64-107): an existing context is overwritten field by field,
else a new one is made. -/
def setCtx {σ} (G : Gen σ) (h : String → Nat) (a : Args) (t : Thread σ) : Thread σ :=
  let rng := G.seed (detSeed h a.tick a.name)
  match t.ctx with
  | some c => { t with ctx := some { c with name := a.name, tick := a.tick, clock := some a.clk, dt := a.dt, simTime := a.simTime, rng := rng, start := a.start, budget := a.budget } }
  | none => { t with ctx := some { name := a.name, tick := a.tick, clock := some a.clk, dt := a.dt, simTime := a.simTime, rng := rng, start := a.start, budget := a.budget } }

/-- `clear_tick_context` (tick_context.rs:113-120): only the clock and the budget are cleared; the
rest stays behind. -/
def clearCtx {σ} (t : Thread σ) : Thread σ :=
  match t.ctx with
  | some c => { t with ctx := some { c with clock := none, budget := none } }
  | none => t

/-- Calls node code can make (horus/src/time.rs:106-217). `rand` is `rng(|r| draw)`; `randWith c` is
`rng(|r| { c; draw })`, a closure that itself asks for the time. -/
inductive Simple
  | now | dt | elapsed | tick | budget
  deriving DecidableEq

/-- See `Simple`. -/
inductive Call
  | ask (s : Simple)
  | rand
  | randWith (s : Simple)
  deriving DecidableEq

/-- Answers. `budgetMax` is `Duration::MAX`. -/
inductive Ans
  | instant (ns : Nat)
  | dur (ns : Nat)
  | num (n : Nat)
  | budgetMax
  | random (n : Nat)
  deriving DecidableEq

/-- The context if it is armed: the `filter(|tc| tc.clock.is_some())` of every reader. -/
def armed {σ} (t : Thread σ) : Option (Ctx σ × (Nat → Nat)) :=
  match t.ctx with
  | some c => c.clock.map fun k => (c, k)
  | none => none

/-- `FALLBACK_CLOCK.with(|wc| wc.now())` at real time `r` (tick_context.rs:137, clock.rs:116-120):
time since the first use on this thread. -/
def fallbackNow {σ} (t : Thread σ) (r : Nat) : Nat × Thread σ :=
  match t.epoch with
  | some e => ((r - e) % u64, t)
  | none => (0, { t with epoch := some r })

/-- The readers `ctx_now`, `ctx_dt`, `ctx_elapsed`, `ctx_tick`, `ctx_budget_remaining`
(tick_context.rs:126-194) at real time `r`. -/
def ask {σ} (t : Thread σ) (r : Nat) : Simple → Ans × Thread σ
  | .now => match armed t with
    | some (_, k) => (.instant (k r), t)
    | none => let f := fallbackNow t r; (.instant f.1, f.2)
  | .dt => (.dur ((armed t).elim 0 (·.1.dt)), t)
  | .elapsed => (.dur ((armed t).elim 0 (·.1.simTime)), t)
  | .tick => (.num ((armed t).elim 0 (·.1.tick)), t)
  | .budget => match armed t with
    | some (c, k) => match c.budget with
      | some b => (.dur (b - (k r - c.start)), t)
      | none => (.budgetMax, t)
    | none => (.budgetMax, t)

/-- `ctx_with_rng` (tick_context.rs:200-215) with a closure that draws one number. -/
def draw {σ} (G : Gen σ) (t : Thread σ) : Ans × Thread σ :=
  match t.ctx with
  | some c =>
    if c.clock.isSome then
      let d := G.next c.rng
      (.random d.1, { t with ctx := some { c with rng := d.2 } })
    else let d := G.next t.fallback; (.random d.1, { t with fallback := d.2 })
  | none => let d := G.next t.fallback; (.random d.1, { t with fallback := d.2 })

/-- One call at real time `r`; `none` is a panic. `ctx_with_rng` keeps the context mutably borrowed
while the closure runs (tick_context.rs:202-206), so a reader called in the closure panics inside a
tick; outside a tick the borrow is dropped first (tick_context.rs:208). -/
def call {σ} (G : Gen σ) (t : Thread σ) (r : Nat) : Call → Option (Ans × Thread σ)
  | .ask s => some (ask t r s)
  | .rand => some (draw G t)
  | .randWith s =>
    if (armed t).isSome then none
    else some (draw G (ask t r s).2)

/-- A sequence of calls with the real times they are made at, up to the first panic. -/
def calls {σ} (G : Gen σ) (t : Thread σ) : List (Nat × Call) → List Ans × Bool × Thread σ
  | [] => ([], true, t)
  | (r, c) :: cs =>
    match call G t r c with
    | none => ([], false, t)
    | some (a, t') =>
      let x := calls G t' cs
      (a :: x.1, x.2.1, x.2.2)

/-- What a thread does: tick a node, or run other code (`init`, `shutdown`, `main`, a thread of the
user's). A tick that panics for its own reasons is a tick with fewer calls: the panic is caught
(primitives.rs:207-218) and the context cleared all the same (scheduler/mod.rs:4404-4411,
5291-5297; the executors likewise: rt_executor.rs:255-271, compute_executor.rs:193-199,
async_executor.rs:203-209, event_executor.rs:195-201). -/
inductive Ev
  | tick (a : Args) (cs : List (Nat × Call))
  | other (cs : List (Nat × Call))

/-- One event: answers, whether no call panicked, and the thread afterwards. -/
def step {σ} (G : Gen σ) (h : String → Nat) (t : Thread σ) : Ev → List Ans × Bool × Thread σ
  | .tick a cs =>
    let x := calls G (setCtx G h a t) cs
    (x.1, x.2.1, clearCtx x.2.2)
  | .other cs => calls G t cs

/-- Any history of a thread. -/
def run {σ} (G : Gen σ) (h : String → Nat) (t : Thread σ) : List Ev → Thread σ
  | [] => t
  | e :: es => run G h (step G h t e).2.2 es

/-- A new thread. -/
def fresh {σ} (G : Gen σ) (osSeed : Nat) : Thread σ := { ctx := none, epoch := none, fallback := G.seed osSeed }

/-! ### specification -/

/-- The `n`-th number drawn from state `s`. -/
def nth {σ} (G : Gen σ) (s : σ) : Nat → Nat
  | 0 => (G.next s).1
  | n + 1 => nth G (G.next s).2 n

/-- What a question asked at real time `r` should be answered during the tick described by `a`. -/
def Says (a : Args) (r : Nat) : Simple → Ans
  | .now => .instant (a.clk r)
  | .dt => .dur a.dt
  | .elapsed => .dur a.simTime
  | .tick => .num a.tick
  | .budget => match a.budget with
    | some b => .dur (b - (a.clk r - a.start))
    | none => .budgetMax

/-- Number of draws among the first `i` calls. -/
def drawsBefore (cs : List (Nat × Call)) (i : Nat) : Nat := ((cs.take i).filter (fun c => c.2 == .rand)).length

/-- A call that does not ask questions while drawing. -/
def Plain (c : Nat × Call) : Prop := ∀ s, c.2 ≠ .randWith s

/-! ### proofs -/

section
variable {σ : Type} (G : Gen σ) (h : String → Nat)

/-- Outside ticks the context is never armed. -/
def Disarmed (t : Thread σ) : Prop := armed t = none

theorem clear_disarms (t : Thread σ) : Disarmed (clearCtx t) := by
  unfold Disarmed clearCtx armed
  cases hc : t.ctx with
  | none => simp [hc]
  | some c => simp

theorem ask_armed (t : Thread σ) (r : Nat) (s : Simple) : armed (ask t r s).2 = armed t := by
  cases s with
  | now =>
    simp only [ask]
    cases ha : armed t with
    | some x => simpa using ha
    | none =>
      simp only [fallbackNow]
      cases he : t.epoch with
      | some e => simpa using ha
      | none => simpa [armed] using ha
  | dt => rfl
  | elapsed => rfl
  | tick => rfl
  | budget =>
    simp only [ask]
    cases ha : armed t with
    | none => simpa using ha
    | some x =>
      obtain ⟨c, k⟩ := x
      cases hb : c.budget <;> simp [hb, ha]

theorem draw_disarmed (t : Thread σ) (hd : Disarmed t) : Disarmed (draw G t).2 := by
  unfold Disarmed armed at *
  unfold draw
  cases hc : t.ctx with
  | none => simp [hc]
  | some c =>
    simp only [hc] at hd
    have : c.clock = none := by simpa using hd
    simp [this, hc]

theorem calls_disarmed (t : Thread σ) (hd : Disarmed t) (cs : List (Nat × Call)) : Disarmed (calls G t cs).2.2 := by
  induction cs generalizing t with
  | nil => exact hd
  | cons c cs ih =>
    obtain ⟨r, c⟩ := c
    cases c with
    | ask s => exact ih (ask t r s).2 ((ask_armed t r s).trans hd)
    | rand => exact ih _ (draw_disarmed G t hd)
    | randWith s =>
      have : (armed t).isSome = false := by rw [hd]; rfl
      simp only [calls, call, this, Bool.false_eq_true, if_false]
      exact ih _ (draw_disarmed G _ ((ask_armed t r s).trans hd))

theorem step_disarmed (t : Thread σ) (hd : Disarmed t) (e : Ev) : Disarmed (step G h t e).2.2 := by
  cases e with
  | tick a cs => exact clear_disarms _
  | other cs => exact calls_disarmed G t hd cs

theorem run_disarmed (t : Thread σ) (hd : Disarmed t) (es : List Ev) : Disarmed (run G h t es) := by
  induction es generalizing t with
  | nil => exact hd
  | cons e es ih => exact ih _ (step_disarmed G h t hd e)

theorem run_fresh_disarmed (osSeed : Nat) (es : List Ev) : armed (run G h (fresh G osSeed) es) = none :=
  run_disarmed G h (fresh G osSeed) (by simp [Disarmed, armed, fresh]) es

/-- The thread is inside the tick `a`, with generator state `s`. -/
def Inside (a : Args) (s : σ) (t : Thread σ) : Prop :=
  ∃ c, t.ctx = some c ∧ c.clock = some a.clk ∧ c.tick = a.tick ∧ c.dt = a.dt ∧ c.simTime = a.simTime
    ∧ c.start = a.start ∧ c.budget = a.budget ∧ c.rng = s

theorem set_inside (a : Args) (t : Thread σ) : Inside a (G.seed (detSeed h a.tick a.name)) (setCtx G h a t) := by
  unfold setCtx
  cases t.ctx <;> exact ⟨_, rfl, rfl, rfl, rfl, rfl, rfl, rfl, rfl⟩

theorem inside_armed {a : Args} {s : σ} {t : Thread σ} (hi : Inside a s t) :
    ∃ c, armed t = some (c, a.clk) ∧ c.tick = a.tick ∧ c.dt = a.dt ∧ c.simTime = a.simTime ∧ c.start = a.start ∧ c.budget = a.budget := by
  obtain ⟨c, h1, h2, h3, h4, h5, h6, h7, h8⟩ := hi
  exact ⟨c, by simp [armed, h1, h2], h3, h4, h5, h6, h7⟩

theorem ask_inside {a : Args} {s : σ} {t : Thread σ} (hi : Inside a s t) (r : Nat) (q : Simple) :
    ask t r q = (Says a r q, t) := by
  obtain ⟨c, ha, h3, h4, h5, h6, h7⟩ := inside_armed hi
  cases q with
  | now => simp [ask, ha, Says]
  | dt => simp [ask, ha, Says, h4]
  | elapsed => simp [ask, ha, Says, h5]
  | tick => simp [ask, ha, Says, h3]
  | budget =>
    simp only [ask, ha, Says, h7, h6]
    cases a.budget <;> rfl

theorem draw_inside {a : Args} {s : σ} {t : Thread σ} (hi : Inside a s t) :
    (draw G t).1 = .random (G.next s).1 ∧ Inside a (G.next s).2 (draw G t).2 := by
  obtain ⟨c, h1, h2, h3, h4, h5, h6, h7, h8⟩ := hi
  subst h8
  have : (draw G t) = (.random (G.next c.rng).1, { t with ctx := some { c with rng := (G.next c.rng).2 } }) := by
    simp [draw, h1, h2]
  rw [this]
  exact ⟨rfl, _, rfl, h2, h3, h4, h5, h6, h7, rfl⟩

/-- The expected answer to call `i`, given the generator state at the start. -/
theorem calls_inside {a : Args} {s : σ} {t : Thread σ} (hi : Inside a s t) (cs : List (Nat × Call)) (hp : ∀ c ∈ cs, Plain c) :
    (calls G t cs).1.length = cs.length ∧ (calls G t cs).2.1 = true ∧
    ∀ i (hi' : i < cs.length), (calls G t cs).1[i]? = some (match cs[i].2 with
      | .ask q => Says a cs[i].1 q
      | _ => .random (nth G s (drawsBefore cs i))) := by
  induction cs generalizing s t with
  | nil => exact ⟨rfl, rfl, fun i hi' => absurd hi' (Nat.not_lt_zero _)⟩
  | cons c cs ih =>
    obtain ⟨r, c⟩ := c
    have hp' : ∀ c ∈ cs, Plain c := fun c hc => hp c (List.mem_cons_of_mem _ hc)
    cases c with
    | ask q =>
      have hk := ih hi hp'
      simp only [calls, call, ask_inside hi]
      refine ⟨by simp [hk.1], hk.2.1, ?_⟩
      intro i hlt
      cases i with
      | zero => rfl
      | succ i =>
        have := hk.2.2 i (by simpa using hlt)
        simpa [drawsBefore] using this
    | rand =>
      have hd := draw_inside G hi
      have hk := ih hd.2 hp'
      simp only [calls, call]
      refine ⟨by simp [hk.1], hk.2.1, ?_⟩
      intro i hlt
      cases i with
      | zero => simp [hd.1, drawsBefore, nth]
      | succ i =>
        have := hk.2.2 i (by simpa using hlt)
        simpa [drawsBefore, nth] using this
    | randWith q => exact absurd rfl (hp (r, .randWith q) List.mem_cons_self q)

theorem one_ask (t : Thread σ) (a : Args) (r : Nat) (q : Simple) : (step G h t (.tick a [(r, .ask q)])).1 = [Says a r q] := by
  have hs := set_inside G h a t
  show [(ask (setCtx G h a t) r q).1] = _
  rw [ask_inside hs]

/-- C132. Whatever the thread did before — ticks of other nodes, ticks that panicked, code outside
ticks — every question asked during a tick is answered for the node and tick being run, at the time it
is asked. -/
theorem tick_sees_own_context (osSeed : Nat) (es : List Ev) (a : Args) (cs : List (Nat × Call)) (hp : ∀ c ∈ cs, Plain c)
    (i : Nat) (hi : i < cs.length) (q : Simple) (hq : cs[i].2 = .ask q) :
    (step G h (run G h (fresh G osSeed) es) (.tick a cs)).1[i]? = some (Says a cs[i].1 q) := by
  have := (calls_inside G (set_inside G h a (run G h (fresh G osSeed) es)) cs hp).2.2 i hi
  rw [hq] at this
  exact this

/-- C132. Outside ticks the questions get the documented neutral answers, whatever ticks ran before:
no timestep, no elapsed time, tick 0, no budget. -/
theorem outside_tick_neutral (osSeed : Nat) (es : List Ev) (r : Nat) :
    let t := run G h (fresh G osSeed) es
    (ask t r .dt).1 = .dur 0 ∧ (ask t r .elapsed).1 = .dur 0 ∧ (ask t r .tick).1 = .num 0 ∧ (ask t r .budget).1 = .budgetMax := by
  have hd : armed (run G h (fresh G osSeed) es) = none := run_fresh_disarmed G h osSeed es
  refine ⟨?_, ?_, ?_, ?_⟩ <;> simp [ask, hd]

/-- C132. Outside ticks `now()` is real time since the first such call on this thread. -/
theorem outside_now_is_real_time (osSeed : Nat) (es : List Ev) (r r' : Nat) (hr : r ≤ r') (hb : r' < u64) :
    let t := run G h (fresh G osSeed) es
    ∃ x, (ask t r .now).1 = .instant x ∧
      (t.epoch = none → (ask (ask t r .now).2 r' .now).1 = .instant (r' - r)) ∧
      (∀ e, t.epoch = some e → e ≤ r → (ask (ask t r .now).2 r' .now).1 = .instant (x + (r' - r))) := by
  intro t
  have hd : armed t = none := run_fresh_disarmed G h osSeed es
  have hd' : armed (ask t r .now).2 = none := by rw [ask_armed]; exact hd
  cases he : t.epoch with
  | none =>
    refine ⟨0, by simp [ask, hd, fallbackNow, he], fun _ => ?_, fun e h => by cases h⟩
    simp only [ask, hd'] at *
    simp only [ask, hd, fallbackNow, he]
    rw [Nat.mod_eq_of_lt (by omega)]
  | some e =>
    refine ⟨(r - e) % u64, by simp [ask, hd, fallbackNow, he], fun h => (by cases h), fun e' h hle => ?_⟩
    cases h
    simp only [ask, hd'] at *
    simp only [ask, hd, fallbackNow, he]
    rw [Nat.mod_eq_of_lt (by omega), Nat.mod_eq_of_lt (by omega)]
    congr 1
    omega

/-- C132. The code disagrees with the documentation here: a timestamp taken outside a tick, for
instance in `init`, is on another clock than one taken in a tick. A node that stamps `now()` in `init`
three seconds after the scheduler was created and asks for the time since in a tick one second later
is told four seconds. -/
theorem init_stamp_other_clock (osSeed : Nat) :
    let initAt := 5000; let tickAt := 6000; let epoch := 2000
    let wall : Nat → Nat := fun r => r - epoch
    let t1 := fresh G osSeed
    let stamp := ask t1 initAt .now
    let t2 := setCtx G h { name := "n", tick := 0, clk := wall, dt := 1, simTime := wall tickAt, start := wall tickAt, budget := none } stamp.2
    stamp.1 = .instant 0 ∧ (ask t2 tickAt .now).1 = .instant 4000 := by
  refine ⟨rfl, ?_⟩
  rfl

/-- C132. A closure passed to `rng` that asks for the time panics inside a tick, whatever it asks; the
same closure works outside ticks. -/
theorem rng_closure_asking_panics (osSeed : Nat) (es : List Ev) (a : Args) (r : Nat) (q : Simple) :
    (step G h (run G h (fresh G osSeed) es) (.tick a [(r, .randWith q)])).2.1 = false ∧
    (step G h (run G h (fresh G osSeed) es) (.other [(r, .randWith q)])).2.1 = true := by
  have hd : armed (run G h (fresh G osSeed) es) = none := run_fresh_disarmed G h osSeed es
  obtain ⟨c, ha, -⟩ := inside_armed (set_inside G h a (run G h (fresh G osSeed) es))
  constructor
  · simp [step, calls, call, ha]
  · simp [step, calls, call, hd]

/-- C133. The random numbers a node draws in a tick are determined by its name and tick number alone:
the `k`-th draw is the same on every thread, after every history, with any times, budgets and other
questions in between. -/
theorem random_numbers_reproducible (o o' : Nat) (es es' : List Ev) (a a' : Args) (hn : a.name = a'.name) (ht : a.tick = a'.tick)
    (cs cs' : List (Nat × Call)) (hp : ∀ c ∈ cs, Plain c) (hp' : ∀ c ∈ cs', Plain c)
    (i j : Nat) (hi : i < cs.length) (hj : j < cs'.length) (hri : cs[i].2 = .rand) (hrj : cs'[j].2 = .rand)
    (hk : drawsBefore cs i = drawsBefore cs' j) :
    (step G h (run G h (fresh G o) es) (.tick a cs)).1[i]? = (step G h (run G h (fresh G o') es') (.tick a' cs')).1[j]? := by
  have h1 := (calls_inside G (set_inside G h a (run G h (fresh G o) es)) cs hp).2.2 i hi
  have h2 := (calls_inside G (set_inside G h a' (run G h (fresh G o') es')) cs' hp').2.2 j hj
  rw [hri] at h1
  rw [hrj] at h2
  show (calls G _ cs).1[i]? = (calls G _ cs').1[j]?
  rw [h1, h2, hk, hn, ht]

/-- C133. Successive ticks of a node use different seeds, for as long as tick numbers fit in 64 bits. -/
theorem ticks_have_different_seeds (name : String) (k k' : Nat) (hk : k < u64) (hk' : k' < u64)
    (heq : detSeed h k name = detSeed h k' name) : k = k' := by
  unfold detSeed at heq
  have key : (k * 0x517cc1b727220a95) % u64 = (k' * 0x517cc1b727220a95) % u64 :=
    Nat.ModEq.add_right_cancel' (h name) heq
  have hc : Nat.Coprime u64 0x517cc1b727220a95 := by decide +kernel
  have : k ≡ k' [MOD u64] := Nat.ModEq.cancel_right_of_coprime hc key
  have h3 : k % u64 = k' % u64 := this
  rwa [Nat.mod_eq_of_lt hk, Nat.mod_eq_of_lt hk'] at h3

/-- C133. The documentation promises system entropy in normal mode. There is none: the context does
not know the mode, so two runs of a program draw the same numbers in the same ticks. -/
theorem no_entropy_in_ticks (o o' : Nat) (es es' : List Ev) (a : Args) (r : Nat) :
    (step G h (run G h (fresh G o) es) (.tick a [(r, .rand)])).1 = (step G h (run G h (fresh G o') es') (.tick a [(r, .rand)])).1 := by
  have hp : ∀ c ∈ [((r : Nat), Call.rand)], Plain c := by
    intro c hc
    simp only [List.mem_singleton] at hc
    subst hc
    intro s
    simp
  have h1 := (calls_inside G (set_inside G h a (run G h (fresh G o) es)) _ hp)
  have h2 := (calls_inside G (set_inside G h a (run G h (fresh G o') es')) _ hp)
  apply List.ext_getElem?
  intro i
  by_cases hi : i < 1
  · show (calls G _ _).1[i]? = (calls G _ _).1[i]?
    rw [h1.2.2 i hi, h2.2.2 i hi]
  · show (calls G _ _).1[i]? = (calls G _ _).1[i]?
    rw [List.getElem?_eq_none (by rw [h1.1]; simp at hi ⊢; omega), List.getElem?_eq_none (by rw [h2.1]; simp at hi ⊢; omega)]

/-- Specification: how often a history drew outside ticks. -/
def outsideDraws : List Ev → Nat
  | [] => 0
  | .tick _ _ :: es => outsideDraws es
  | .other cs :: es => (cs.filter fun c => match c.2 with | .ask _ => false | _ => true).length + outsideDraws es

/-- The generator after `n` draws. -/
def advance (s : σ) : Nat → σ
  | 0 => s
  | n + 1 => advance (G.next s).2 n

theorem nth_eq (s : σ) (n : Nat) : nth G s n = (G.next (advance G s n)).1 := by
  induction n generalizing s with
  | zero => rfl
  | succ n ih => exact ih _

theorem advance_add (s : σ) (m n : Nat) : advance G s (m + n) = advance G (advance G s m) n := by
  induction m generalizing s with
  | zero => simp [advance]
  | succ m ih => rw [Nat.succ_add]; exact ih _

theorem ask_fallback (t : Thread σ) (r : Nat) (q : Simple) : (ask t r q).2.fallback = t.fallback := by
  cases q <;> simp only [ask]
  · cases ha : armed t with
    | some c => rfl
    | none => simp only [fallbackNow]; cases t.epoch <;> rfl
  · cases ha : armed t with
    | some c => obtain ⟨c, k⟩ := c; cases hb : c.budget <;> simp [hb]
    | none => rfl

theorem draw_fallback_armed (t : Thread σ) (ha : (armed t).isSome = true) :
    (draw G t).2.fallback = t.fallback ∧ (armed (draw G t).2).isSome = true := by
  unfold armed at *
  cases hc : t.ctx with
  | none => simp [hc] at ha
  | some c =>
    simp only [hc] at ha
    have : c.clock.isSome = true := by simpa using ha
    simp [draw, hc, this]

theorem calls_fallback_armed (t : Thread σ) (ha : (armed t).isSome = true) (cs : List (Nat × Call)) :
    (calls G t cs).2.2.fallback = t.fallback := by
  induction cs generalizing t with
  | nil => rfl
  | cons c cs ih =>
    obtain ⟨r, c⟩ := c
    cases c with
    | ask s =>
      show (calls G (ask t r s).2 cs).2.2.fallback = _
      rw [ih _ (by rw [ask_armed]; exact ha), ask_fallback]
    | rand =>
      show (calls G (draw G t).2 cs).2.2.fallback = _
      rw [ih _ (draw_fallback_armed G t ha).2, (draw_fallback_armed G t ha).1]
    | randWith s => simp [calls, call, ha]

theorem draw_fallback_disarmed (t : Thread σ) (hd : Disarmed t) :
    (draw G t).2.fallback = (G.next t.fallback).2 ∧ (draw G t).1 = .random (G.next t.fallback).1 := by
  unfold Disarmed armed at hd
  cases hc : t.ctx with
  | none => simp [draw, hc]
  | some c =>
    simp only [hc] at hd
    have : c.clock = none := by simpa using hd
    simp [draw, hc, this]

theorem calls_fallback_disarmed (t : Thread σ) (hd : Disarmed t) (cs : List (Nat × Call)) :
    (calls G t cs).2.2.fallback = advance G t.fallback (cs.filter fun c => match c.2 with | .ask _ => false | _ => true).length := by
  induction cs generalizing t with
  | nil => rfl
  | cons c cs ih =>
    obtain ⟨r, c⟩ := c
    cases c with
    | ask s =>
      show (calls G (ask t r s).2 cs).2.2.fallback = _
      rw [ih _ ((ask_armed t r s).trans hd), ask_fallback]
      simp
    | rand =>
      show (calls G (draw G t).2 cs).2.2.fallback = _
      rw [ih _ (draw_disarmed G t hd), (draw_fallback_disarmed G t hd).1]
      simp [advance]
    | randWith s =>
      have hd' : Disarmed (ask t r s).2 := (ask_armed t r s).trans hd
      have : (armed t).isSome = false := by rw [hd]; rfl
      simp only [calls, call, this, Bool.false_eq_true, if_false]
      rw [ih _ (draw_disarmed G _ hd'), (draw_fallback_disarmed G _ hd').1, ask_fallback]
      simp [advance]

theorem run_fallback (t : Thread σ) (hd : Disarmed t) (es : List Ev) :
    (run G h t es).fallback = advance G t.fallback (outsideDraws es) := by
  induction es generalizing t with
  | nil => rfl
  | cons e es ih =>
    rw [run, ih _ (step_disarmed G h t hd e)]
    cases e with
    | tick a cs =>
      have hc : ∀ t : Thread σ, (clearCtx t).fallback = t.fallback := by
        intro t
        unfold clearCtx
        cases t.ctx <;> rfl
      have hs : (setCtx G h a t).fallback = t.fallback := by
        unfold setCtx
        cases t.ctx <;> rfl
      obtain ⟨c, ha, -⟩ := inside_armed (set_inside G h a t)
      simp only [step, hc, outsideDraws]
      rw [calls_fallback_armed G _ (by rw [ha]; rfl), hs]
    | other cs =>
      simp only [step, outsideDraws]
      rw [calls_fallback_disarmed G t hd, advance_add]

/-- C133. Numbers drawn outside ticks come from the thread's own generator, seeded by the operating
system: the next one is the number that generator yields after the draws made outside ticks so far.
Ticks, and what is drawn in them, never show through. -/
theorem outside_draws_own_stream (o : Nat) (es : List Ev) :
    (draw G (run G h (fresh G o) es)).1 = .random (nth G (G.seed o) (outsideDraws es)) := by
  rw [(draw_fallback_disarmed G _ (run_fresh_disarmed G h o es)).2, run_fallback G h (fresh G o) (by simp [Disarmed, armed, fresh]) es, nth_eq]
  rfl

end

/-! ### the budget that is left -/

/-- Context of a node ticked alone on the current thread, starting at real time `r`
(scheduler/mod.rs:4369-4387 and `set_node_tick_context`, primitives.rs:234-265): every field is read
just before the tick. -/
def seqArgs (name : String) (tick : Nat) (clk : Nat → Nat) (dt : Nat) (budget : Option Nat) (r : Nat) : Args :=
  { name := name, tick := tick, clk := clk, dt := dt, simTime := clk r, start := clk r, budget := budget }

/-- Context of a node in a parallel round whose contexts were all prepared at real time `w`, before any
node of the round was ticked (scheduler/mod.rs:5144-5181, used at 5274-5289). -/
def roundArgs (name : String) (tick : Nat) (clk : Nat → Nat) (dt : Nat) (budget : Option Nat) (w : Nat) : Args :=
  { name := name, tick := tick, clk := clk, dt := dt, simTime := clk w, start := clk w, budget := budget }

/-- `WallClock` (clock.rs:103-136) created at real time `e`. -/
def wall (e : Nat) : Nat → Nat := fun r => (r - e) % u64

section
variable {σ : Type} (G : Gen σ) (h : String → Nat)

/-- C134. For a node ticked by an executor thread, by `tick_once` or alone in its scheduler, on the wall
clock: what is left of the budget is the budget minus the time since the tick began, never below
zero. -/
theorem budget_left_sequential_partial (osSeed : Nat) (es : List Ev) (name : String) (k dt b e r0 r : Nat) (h0 : e ≤ r0) (h1 : r0 ≤ r)
    (hb : r - e < u64) :
    (step G h (run G h (fresh G osSeed) es) (.tick (seqArgs name k (wall e) dt (some b) r0) [(r, .ask .budget)])).1 = [.dur (b - (r - r0))] := by
  rw [one_ask]
  simp only [Says, seqArgs, wall]
  rw [Nat.mod_eq_of_lt hb, Nat.mod_eq_of_lt (show r0 - e < u64 by omega)]
  congr 3
  omega

/-- C134. A node in a parallel round is never told more than it has left… -/
theorem budget_left_round_lower (osSeed : Nat) (es : List Ev) (name : String) (k dt b e w r0 r : Nat) (h0 : e ≤ w) (hw : w ≤ r0) (h1 : r0 ≤ r)
    (hb : r - e < u64) :
    ∃ x, (step G h (run G h (fresh G osSeed) es) (.tick (roundArgs name k (wall e) dt (some b) w) [(r, .ask .budget)])).1 = [.dur x] ∧
      x ≤ b - (r - r0) := by
  refine ⟨b - (r - w), ?_, by omega⟩
  rw [one_ask]
  simp only [Says, roundArgs, wall]
  rw [Nat.mod_eq_of_lt hb, Nat.mod_eq_of_lt (show w - e < u64 by omega)]
  congr 3
  omega

/-- C134. … but may be told less: time spent by the nodes before it in the round is charged to it. A
consumer with a budget of 500 that starts 600 after the round began is told at its very first
instruction that nothing is left. -/
theorem round_budget_charges_predecessors (osSeed : Nat) (es : List Ev) :
    (step G h (run G h (fresh G osSeed) es) (.tick (roundArgs "consumer" 0 (wall 0) 1000 (some 500) 100) [(700, .ask .budget)])).1 = [.dur 0] := by
  rw [one_ask]
  simp only [Says, roundArgs, wall]
  rfl

/-- C134. On the virtual clock, which stands still during a tick, the budget never shrinks: however long
the tick works, it is told the whole budget is left. -/
theorem virtual_budget_never_shrinks (osSeed : Nat) (es : List Ev) (name : String) (k dt b v r0 r : Nat) :
    (step G h (run G h (fresh G osSeed) es) (.tick (seqArgs name k (fun _ => v) dt (some b) r0) [(r, .ask .budget)])).1 = [.dur b] := by
  rw [one_ask]
  simp [Says, seqArgs]

/-- The loop of the documentation (horus/src/time.rs:180-192): improve, stop when less than `margin` is
left. `none`: still improving after `fuel` rounds; the rounds end at real times `at_ i`. -/
def anytime {σ} (t : Thread σ) (margin : Nat) (at_ : Nat → Nat) : Nat → Nat → Option Nat
  | 0, _ => none
  | fuel + 1, i =>
    match (ask t (at_ i) .budget).1 with
    | .dur x => if x < margin then some i else anytime t margin at_ fuel (i + 1)
    | _ => anytime t margin at_ fuel (i + 1)

/-- C134. The documented anytime loop ends on the wall clock, before the budget runs out by more than
one round, if real time passes… -/
theorem anytime_ends_on_wall_clock (osSeed : Nat) (es : List Ev) (name : String) (k dt b margin e r0 : Nat) (h0 : e ≤ r0) (hm : 0 < margin)
    (at_ : Nat → Nat) (hinc : ∀ i, r0 + i < at_ i) (hb : ∀ i, i ≤ b → at_ i - e < u64) :
    ∃ n, anytime (setCtx G h (seqArgs name k (wall e) dt (some b) r0) (run G h (fresh G osSeed) es)) margin at_ (b + 1) 0 = some n ∧
      b - (at_ n - r0) < margin ∧ ∀ j, j < n → margin ≤ b - (at_ j - r0) := by
  have hs := set_inside G h (seqArgs name k (wall e) dt (some b) r0) (run G h (fresh G osSeed) es)
  have hans : ∀ i, i ≤ b → (ask (setCtx G h (seqArgs name k (wall e) dt (some b) r0) (run G h (fresh G osSeed) es)) (at_ i) .budget).1 = .dur (b - (at_ i - r0)) := by
    intro i hi
    rw [ask_inside hs]
    simp only [Says, seqArgs, wall]
    have := hb i hi
    have := hinc i
    rw [Nat.mod_eq_of_lt (hb i hi), Nat.mod_eq_of_lt (show r0 - e < u64 by omega)]
    congr 1
    omega
  have go : ∀ fuel i, fuel + i = b + 1 → (∀ j, j < i → margin ≤ b - (at_ j - r0)) →
      ∃ n, anytime (setCtx G h (seqArgs name k (wall e) dt (some b) r0) (run G h (fresh G osSeed) es)) margin at_ fuel i = some n ∧
      b - (at_ n - r0) < margin ∧ ∀ j, j < n → margin ≤ b - (at_ j - r0) := by
    intro fuel
    induction fuel with
    | zero =>
      intro i hi hprev
      exfalso
      have h2 := hprev b (by omega)
      have h3 := hinc b
      omega
    | succ fuel ih =>
      intro i hi hprev
      simp only [anytime, hans i (by omega)]
      by_cases hlt : b - (at_ i - r0) < margin
      · rw [if_pos hlt]
        exact ⟨i, rfl, hlt, hprev⟩
      · rw [if_neg hlt]
        refine ih (i + 1) (by omega) ?_
        intro j hj
        by_cases hji : j = i
        · subst hji; omega
        · exact hprev j (by omega)
  exact go (b + 1) 0 (by omega) (by intro j hj; omega)

/-- C134. … and never ends in deterministic mode: the tick hangs. -/
theorem anytime_hangs_on_virtual_clock (osSeed : Nat) (es : List Ev) (name : String) (k dt b margin v r0 : Nat) (hm : margin ≤ b)
    (at_ : Nat → Nat) (fuel : Nat) :
    anytime (setCtx G h (seqArgs name k (fun _ => v) dt (some b) r0) (run G h (fresh G osSeed) es)) margin at_ fuel 0 = none := by
  have hs := set_inside G h (seqArgs name k (fun _ => v) dt (some b) r0) (run G h (fresh G osSeed) es)
  have go : ∀ fuel i, anytime (setCtx G h (seqArgs name k (fun _ => v) dt (some b) r0) (run G h (fresh G osSeed) es)) margin at_ fuel i = none := by
    intro fuel
    induction fuel with
    | zero => intro i; rfl
    | succ fuel ih =>
      intro i
      have hb : (ask (setCtx G h (seqArgs name k (fun _ => v) dt (some b) r0) (run G h (fresh G osSeed) es)) (at_ i) .budget).1 = .dur b := by
        rw [ask_inside hs]
        simp [Says, seqArgs]
      simp only [anytime, hb]
      rw [if_neg (by omega)]
      exact ih (i + 1)
  exact go fuel 0

end

/-! ### non-vacuity -/

/-- A toy generator: counts up. -/
def counter : Gen Nat := { seed := fun s => s, next := fun s => (s, s + 1) }

/-- Node "b" ticks for the third time on a thread that has ticked "a", which panicked in a nested
closure, and asked for the time outside ticks. -/
example :
    (step counter String.length (run counter String.length (fresh counter 9)
      [.other [(5, .ask .now)], .tick (seqArgs "a" 7 (wall 1) 10 (some 4) 6) [(6, .rand), (7, .randWith .now), (8, .rand)]])
      (.tick (seqArgs "b" 2 (wall 1) 20 (some 30) 11) [(12, .ask .dt), (13, .rand), (14, .ask .budget), (15, .rand), (16, .ask .tick), (17, .ask .now)])).1
    = [.dur 20, .random (detSeed String.length 2 "b"), .dur 27, .random (detSeed String.length 2 "b" + 1), .num 2, .instant 16] := by
  decide +kernel

end Horus.TickCtx
