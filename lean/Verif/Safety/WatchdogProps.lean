import Verif.Safety.Monitor
import Mathlib.Data.List.Rotate
/-
C54 (watchdogs), C56 (critical nodes) and C74 (timing report).
-/
namespace Horus.Safety.Monitor
open Horus.Ring (upd upd_same upd_ne)

local notation "U64" => (18446744073709551616 : Nat)
local notation "I63" => (9223372036854775808 : Nat)

theorem upd_at {α : Type} (f : Nat → α) (i : Nat) (v : α) (j : Nat) :
    upd f i v j = if j = i then v else f j := rfl

/-! ### C54 -/

/-- C54: for every timeout below 2^64 ns (584 years) and every elapsed time below 2^63 ns (292 years)
the severity is exactly the number of timeouts elapsed. -/
theorem severity_exact (w : Watchdog) (now : Nat) (ht : w.timeout < U64) (he : now - w.lastHeartbeat < I63) :
    (w.check now = .ok ↔ now - w.lastHeartbeat ≤ w.timeout) ∧
    (w.check now = .warning ↔ w.timeout < now - w.lastHeartbeat ∧ now - w.lastHeartbeat ≤ 2 * w.timeout) ∧
    (w.check now = .expired ↔ 2 * w.timeout < now - w.lastHeartbeat ∧ now - w.lastHeartbeat ≤ 3 * w.timeout) ∧
    (w.check now = .critical ↔ 3 * w.timeout < now - w.lastHeartbeat) := by
  unfold Watchdog.check
  simp only [Nat.mod_eq_of_lt ht]
  generalize now - w.lastHeartbeat = e at he
  by_cases h1 : e ≤ w.timeout
  · rw [if_pos h1]; simp; omega
  · have h2 : w.timeout * 2 % U64 = w.timeout * 2 := Nat.mod_eq_of_lt (by omega)
    rw [if_neg h1, h2]
    by_cases h3 : e ≤ w.timeout * 2
    · rw [if_pos h3]; simp; omega
    · have h4 : w.timeout * 3 % U64 = w.timeout * 3 := Nat.mod_eq_of_lt (by omega)
      rw [if_neg h3, h4]
      by_cases h5 : e ≤ w.timeout * 3
      · rw [if_pos h5]; simp; omega
      · rw [if_neg h5]; simp; omega

/-- How bad a severity is. -/
def Severity.rank : Severity → Nat
  | .ok => 0
  | .warning => 1
  | .expired => 2
  | .critical => 3

/-- C54: without a heartbeat, severity never decreases. -/
theorem severity_monotone (w : Watchdog) (now later : Nat) (h : now ≤ later) (ht : w.timeout < U64)
    (he : later - w.lastHeartbeat < I63) : (w.check now).rank ≤ (w.check later).rank := by
  obtain ⟨a1, a2, a3, a4⟩ := severity_exact w now ht (by omega)
  obtain ⟨b1, b2, b3, b4⟩ := severity_exact w later ht he
  cases ha : w.check now <;> cases hb : w.check later <;> simp only [Severity.rank] <;>
    simp only [ha, hb, reduceCtorEq, false_iff, true_iff] at a1 a2 a3 a4 b1 b2 b3 b4 <;> omega

/-- C54: a heartbeat gives the node a full timeout again. -/
theorem fed_is_ok (w : Watchdog) (t now : Nat) (ht : w.timeout < U64) (he : now - t < I63) :
    (w.feed t).check now = .ok ↔ now ≤ t + w.timeout := by
  have := (severity_exact (w.feed t) now ht he).1
  rw [this]
  show now - t ≤ w.timeout ↔ _
  omega

/-- C54: scaling never compounds, and never makes the timeout shorter than configured by more than the
rounding `ε` of the product (any real product that does not round below `base - ε` for a factor of at
least one). -/
theorem scale_never_stricter {S : Type} (atLeastOne : S → S) (scaled : Nat → S → Nat) (ε : Nat)
    (hr : ∀ base s, base ≤ scaled base (atLeastOne s) + ε) (timeout now : Nat) (scales : List S) (s : S) :
    let w := (scales.foldl (Watchdog.setScale atLeastOne scaled) (Watchdog.new timeout now)).setScale atLeastOne scaled s
    w.timeout = scaled timeout (atLeastOne s) ∧ timeout ≤ w.timeout + ε ∧ w.lastHeartbeat = now := by
  have hb : ∀ (scales : List S) (w : Watchdog), (scales.foldl (Watchdog.setScale atLeastOne scaled) w).baseTimeout = w.baseTimeout ∧
      (scales.foldl (Watchdog.setScale atLeastOne scaled) w).lastHeartbeat = w.lastHeartbeat := by
    intro scales
    induction scales with
    | nil => intro w; exact ⟨rfl, rfl⟩
    | cons x xs ih => intro w; exact ih _
  have h1 : (scales.foldl (Watchdog.setScale atLeastOne scaled) (Watchdog.new timeout now)).baseTimeout = timeout := (hb _ _).1
  refine ⟨?_, ?_, (hb scales _).2⟩
  · show scaled _ _ = _; rw [h1]
  · show _ ≤ scaled _ _ + ε; rw [h1]; exact hr _ _

/-- A factor given in thousandths meets the hypothesis with no rounding at all. -/
example (base s : Nat) : base ≤ base * (max s 1000) / 1000 + 0 := by
  rw [Nat.add_zero, Nat.le_div_iff_mul_le (by omega)]
  exact Nat.mul_le_mul_left _ (by omega)

/-- Disagreement: a timeout of more than 584 years is cut to 64 bits: this one, of 18446744074 s, acts
as 0.29 s. -/
theorem huge_timeout_truncated :
    (Watchdog.new (18446744074 * 1000000000) 0).check 1000000000 = .critical := by decide

/-- The heartbeat is a wall-clock reading: a clock set forward by an hour makes a node that was fed a
millisecond ago critical (and with it stops the robot). -/
theorem clock_step_is_critical :
    (Watchdog.new (500 * 1000000) 1000).check (1000 + 1000000 + 3600 * 1000000000) = .critical := by decide

/-! ### C56 -/

/-- What the monitor is told at run time. -/
inductive Op where
  /-- a heartbeat -/
  | feed (n now : Nat)
  /-- the periodic check of all watchdogs -/
  | watchdogs (now : Nat)
  /-- a finished tick and its duration -/
  | tick (n duration : Nat)
  /-- a missed deadline -/
  | miss (n severity : Nat)
deriving DecidableEq

/-- Carry out one call. -/
def Mon.op {R : Type} (m : Mon R) : Op → Mon R
  | .feed n now => m.feed n now
  | .watchdogs now => (m.checkWatchdogs now).1
  | .tick n d => (m.checkBudget n d).1
  | .miss n s => m.recordMiss n s

/-- Carry out a history. -/
def Mon.ops {R : Type} (m : Mon R) (l : List Op) : Mon R := l.foldl Mon.op m

/-- The time of the last heartbeat of `n` in a history, or `t0`. -/
def lastFed (n t0 : Nat) : List Op → Nat
  | [] => t0
  | .feed n' now :: l => lastFed n (if n' = n then now else t0) l
  | _ :: l => lastFed n t0 l

/-- Misses reported in a history. -/
def missCount : List Op → Nat
  | [] => 0
  | .miss _ _ :: l => missCount l + 1
  | _ :: l => missCount l

/-- The budget of a node. -/
def Mon.budgetOf {R : Type} (m : Mon R) (n : Nat) : Option Nat := (m.timing n).bind (·.budget)

/-- The call `o`, made after the calls `pre`, must stop the robot: a critical node exceeded its budget
or missed its deadline or was silent for more than three timeouts, or the misses reached the limit. -/
def mustStop {R : Type} (m : Mon R) (pre : List Op) : Op → Prop
  | .feed _ _ => False
  | .tick n d => n ∈ m.critical ∧ ∃ b, m.budgetOf n = some b ∧ b < d
  | .miss n _ => n ∈ m.critical ∨ m.maxMisses ≤ m.misses + missCount pre + 1
  | .watchdogs now => ∃ e ∈ m.watchdogs, e.1 ∈ m.critical ∧ 3 * e.2.timeout < now - lastFed e.1 e.2.lastHeartbeat pre

theorem recordTick_spec (t : Timing) (d : Nat) :
    ((t.recordTick d).2 = true ↔ ∃ b, t.budget = some b ∧ b < d) ∧ (t.recordTick d).1.budget = t.budget := by
  unfold Timing.recordTick
  simp only
  split
  · next b hb =>
    split
    · next h => exact ⟨by simp only [hb, true_iff]; exact ⟨b, rfl, h⟩, rfl⟩
    · next h => exact ⟨by simp only [hb, Bool.false_eq_true, false_iff]; rintro ⟨b', e, h'⟩; injection e with e; subst e; exact h h', rfl⟩
  · next hb => exact ⟨by simp [hb], rfl⟩

theorem op_config {R : Type} (m : Mon R) (o : Op) :
    (m.op o).critical = m.critical ∧ (m.op o).maxMisses = m.maxMisses ∧ (∀ n, (m.op o).budgetOf n = m.budgetOf n) ∧
    (m.op o).misses = m.misses + missCount [o] ∧
    (m.op o).watchdogs = m.watchdogs.map fun e => (e.1, { e.2 with lastHeartbeat := lastFed e.1 e.2.lastHeartbeat [o] }) := by
  cases o with
  | feed n now =>
    refine ⟨rfl, rfl, fun _ => rfl, rfl, ?_⟩
    show List.map _ _ = _
    apply List.map_congr_left
    rintro ⟨n', w⟩ _
    simp only [lastFed, Watchdog.feed]
    by_cases e : n' = n
    · subst e; simp
    · simp only [if_neg e, if_neg (Ne.symm e)]
  | watchdogs now =>
    refine ⟨rfl, rfl, fun _ => rfl, rfl, ?_⟩
    show m.watchdogs = _
    simp [lastFed]
  | tick n d =>
    refine ⟨rfl, rfl, ?_, rfl, by show m.watchdogs = _; simp [lastFed]⟩
    intro n'
    show Option.bind (upd m.timing n _ n') _ = _
    rw [upd_at]
    split
    · next e =>
      subst e
      simp only [Option.bind_some, (recordTick_spec _ _).2, Mon.budgetOf]
      cases m.timing n' <;> rfl
    · rfl
  | miss n s =>
    refine ⟨rfl, rfl, ?_, rfl, by show m.watchdogs = _; simp [lastFed]⟩
    intro n'
    show Option.bind (upd m.timing n _ n') _ = _
    rw [upd_at]
    split
    · next e =>
      subst e
      simp only [Option.bind_some, Mon.budgetOf, Timing.recordMiss]
      cases m.timing n' <;> rfl
    · rfl

theorem lastFed_append (n t0 : Nat) (l l' : List Op) : lastFed n t0 (l ++ l') = lastFed n (lastFed n t0 l) l' := by
  induction l generalizing t0 with
  | nil => rfl
  | cons o l ih => cases o <;> simp only [List.cons_append, lastFed, ih]

theorem missCount_append (l l' : List Op) : missCount (l ++ l') = missCount l + missCount l' := by
  induction l with
  | nil => simp [missCount]
  | cons o l ih => cases o <;> simp only [List.cons_append, missCount, ih] <;> omega

/-- One call stops the robot exactly when it must. -/
theorem op_stop {R : Type} (m : Mon R) (o : Op) (hw : ∀ e ∈ m.watchdogs, e.2.timeout < U64)
    (ht : ∀ now, o = .watchdogs now → now < I63) :
    (m.op o).stop = true ↔ m.stop = true ∨ mustStop m [] o := by
  cases o with
  | feed n now => simp [Mon.op, Mon.feed, mustStop]
  | tick n d =>
    simp only [Mon.op, Mon.checkBudget, mustStop, Bool.or_eq_true, Bool.and_eq_true, decide_eq_true_eq]
    rw [(recordTick_spec _ _).1]
    have : ((m.timing n).getD (Timing.new none)).budget = m.budgetOf n := by
      unfold Mon.budgetOf; cases m.timing n <;> rfl
    rw [this]
    tauto
  | miss n s =>
    simp only [Mon.op, Mon.recordMiss, mustStop, Bool.or_eq_true, decide_eq_true_eq, missCount, Nat.add_zero]
    tauto
  | watchdogs now =>
    simp only [Mon.op, Mon.checkWatchdogs, mustStop, Bool.or_eq_true, List.any_eq_true, List.mem_filter,
      List.mem_map, decide_eq_true_eq, lastFed]
    have hnow := ht now rfl
    refine or_congr_right ?_
    constructor
    · rintro ⟨x, ⟨⟨⟨n, w⟩, hm, rfl⟩, _⟩, hc, hcr⟩
      exact ⟨(n, w), hm, hcr, ((severity_exact w now (hw _ hm) (by omega)).2.2.2).1 hc⟩
    · rintro ⟨⟨n, w⟩, hm, hcr, hl⟩
      have hc := ((severity_exact w now (hw _ hm) (by omega)).2.2.2).2 hl
      refine ⟨(n, w.check now), ⟨⟨(n, w), hm, rfl⟩, by rw [hc]; simp⟩, hc, hcr⟩

/-- C56: over every history of heartbeats, checks, ticks and misses, the robot is stopped exactly if
one of the calls had to stop it, and then by that very call. -/
theorem stopped_iff {R : Type} (m : Mon R) (l : List Op) (hw : ∀ e ∈ m.watchdogs, e.2.timeout < U64)
    (ht : ∀ now, Op.watchdogs now ∈ l → now < I63) :
    (m.ops l).stop = true ↔
      m.stop = true ∨ ∃ pre o post, l = pre ++ o :: post ∧ mustStop m pre o := by
  induction l generalizing m with
  | nil => simp [Mon.ops]
  | cons o l ih =>
    obtain ⟨c1, c2, c3, c4, c5⟩ := op_config m o
    have hstep : m.ops (o :: l) = (m.op o).ops l := rfl
    have hmust : ∀ pre o', mustStop (m.op o) pre o' ↔ mustStop m (o :: pre) o' := by
      intro pre o'
      cases o' with
      | feed n now => simp [mustStop]
      | tick n d => simp [mustStop, c1, c3]
      | miss n s =>
        simp only [mustStop, c1, c2, c4]
        have := missCount_append [o] pre
        simp only [List.singleton_append] at this
        rw [this, Nat.add_assoc, Nat.add_assoc, Nat.add_assoc, Nat.add_assoc]
      | watchdogs now =>
        simp only [mustStop, c1, c5, List.mem_map]
        have hl : ∀ n t0, lastFed n t0 (o :: pre) = lastFed n (lastFed n t0 [o]) pre := fun n t0 => lastFed_append n t0 [o] pre
        constructor
        · rintro ⟨_, ⟨e, he, rfl⟩, hcr, h⟩
          exact ⟨e, he, hcr, by rw [hl]; exact h⟩
        · rintro ⟨e, he, hcr, h⟩
          refine ⟨_, ⟨e, he, rfl⟩, hcr, ?_⟩
          rw [hl] at h; exact h
    rw [hstep, ih (m.op o) ?_ (fun now h => ht now (List.mem_cons_of_mem _ h)),
      op_stop m o hw (fun now h => ht now (by rw [h]; exact List.mem_cons_self))]
    · constructor
      · rintro ((h | h) | ⟨pre, o', post, rfl, h⟩)
        · exact .inl h
        · exact .inr ⟨[], o, l, rfl, h⟩
        · exact .inr ⟨o :: pre, o', post, rfl, (hmust pre o').1 h⟩
      · rintro (h | ⟨pre, o', post, e, h⟩)
        · exact .inl (.inl h)
        · cases pre with
          | nil =>
            simp only [List.nil_append, List.cons.injEq] at e
            rw [← e.1] at h
            exact .inl (.inr h)
          | cons x pre =>
            simp only [List.cons_append, List.cons.injEq] at e
            rw [← e.1] at h
            exact .inr ⟨pre, o', post, e.2, (hmust pre o').2 h⟩
    · rw [c5]
      intro e he
      obtain ⟨e', he', rfl⟩ := List.mem_map.1 he
      exact hw e' he'

/-- Every node registered as critical has a watchdog, and every watchdog belongs to a critical node. -/
theorem critical_watched {R : Type} (maxMisses : Nat) (regs : List (Nat × Nat × Nat)) (n : Nat) :
    let m := regs.foldl (fun (m : Mon R) r => m.addCritical r.1 r.2.1 r.2.2) (Mon.new maxMisses)
    n ∈ m.critical ↔ n ∈ m.watchdogs.map Prod.fst := by
  have : ∀ (regs : List (Nat × Nat × Nat)) (m : Mon R), (n ∈ m.critical ↔ n ∈ m.watchdogs.map Prod.fst) →
      (n ∈ (regs.foldl (fun (m : Mon R) r => m.addCritical r.1 r.2.1 r.2.2) m).critical ↔
        n ∈ (regs.foldl (fun (m : Mon R) r => m.addCritical r.1 r.2.1 r.2.2) m).watchdogs.map Prod.fst) := by
    intro regs
    induction regs with
    | nil => intro m h; exact h
    | cons r regs ih =>
      intro m h
      apply ih
      simp only [Mon.addCritical, putDog, List.mem_append, List.mem_singleton, List.map_cons, List.mem_cons, h,
        List.mem_map, List.mem_filter, List.not_mem_nil, or_false]
      constructor
      · rintro (⟨e, he, rfl⟩ | h)
        · by_cases hx : e.1 = r.1
          · exact .inl hx
          · exact .inr ⟨e, ⟨he, by simpa using hx⟩, rfl⟩
        · exact .inl h
      · rintro (h | ⟨e, ⟨he, _⟩, rfl⟩)
        · exact .inr h
        · exact .inl ⟨e, he, rfl⟩
  exact this regs _ (by simp [Mon.new])

/-- Non-vacuity: a critical node (timeout 10, budget 5) is fed in time, ticks within its budget, a
second node misses twice with a limit of three: running. One more miss, or one late heartbeat, or one
long tick: stopped. -/
example : let m := ((Mon.new 3 : Mon Nat).addCritical 1 10 0).setBudget 1 5
    (m.ops [.feed 1 8, .watchdogs 30, .tick 1 5, .miss 2 0, .miss 2 0, .watchdogs 38]).stop = false ∧
    (m.ops [.feed 1 8, .miss 2 0, .miss 2 0, .miss 2 0]).stop = true ∧
    (m.ops [.feed 1 8, .watchdogs 39]).stop = true ∧ (m.ops [.tick 1 6]).stop = true := by decide

/-! ### C74 -/

theorem ring_pos (l : List Nat) : (l.foldl TickRing.record TickRing.new).writePos = l.length % ringCapacity ∧
    (l.foldl TickRing.record TickRing.new).count = l.length := by
  induction l using List.reverseRecOn with
  | nil => exact ⟨rfl, rfl⟩
  | append_singleton l x ih =>
    rw [List.foldl_append]
    simp only [List.foldl_cons, List.foldl_nil, TickRing.record, ih.1, ih.2, List.length_append,
      List.length_singleton, Nat.mod_add_mod, and_self]

theorem ring_cell (l : List Nat) : ∀ k, k < l.length → l.length ≤ k + ringCapacity →
    (l.foldl TickRing.record TickRing.new).durations (k % ringCapacity) = l.getD k 0 := by
  induction l using List.reverseRecOn with
  | nil => intro k hk; simp at hk
  | append_singleton l x ih =>
    intro k hk hk2
    rw [List.foldl_append]
    simp only [List.foldl_cons, List.foldl_nil, TickRing.record, (ring_pos l).1]
    simp only [List.length_append, List.length_singleton] at hk hk2
    rw [upd_at]
    by_cases e : k = l.length
    · subst e; simp
    · have hk' : k < l.length := by omega
      have hne : k % ringCapacity ≠ l.length % ringCapacity := by
        unfold ringCapacity at *
        omega
      rw [if_neg hne, ih k hk' (by omega)]
      simp [List.getD, List.getElem?_append_left hk']

/-- C74: the statistics are taken over exactly the durations of the last 1024 ticks, or of all ticks if
there were fewer; the number of ticks is exact. -/
theorem samples_are_latest (l : List Nat) :
    let r := l.foldl TickRing.record TickRing.new
    r.samples.Perm (l.drop (l.length - ringCapacity)) ∧ r.count = l.length := by
  obtain ⟨hp, hc⟩ := ring_pos l
  refine ⟨?_, hc⟩
  generalize hr : l.foldl TickRing.record TickRing.new = r at *
  have hcell := ring_cell l
  rw [hr] at hcell
  by_cases hl : l.length ≤ ringCapacity
  · have : r.samples = l.drop (l.length - ringCapacity) := by
      rw [show l.length - ringCapacity = 0 by omega, List.drop_zero]
      apply List.ext_getElem
      · simp [TickRing.samples, TickRing.validCount, hc, hl]
      · intro i h1 h2
        have := hcell i h2 (by omega)
        rw [Nat.mod_eq_of_lt (by omega)] at this
        simp only [TickRing.samples, List.getElem_map, List.getElem_range, this]
        simp [List.getD, h2]
    rw [this]
  · have hv : r.validCount = ringCapacity := by simp only [TickRing.validCount, hc]; omega
    have : r.samples.rotate (l.length % ringCapacity) = l.drop (l.length - ringCapacity) := by
      apply List.ext_getElem
      · simp [TickRing.samples, hv]; omega
      · intro i h1 h2
        have hi : i < ringCapacity := by simpa [TickRing.samples, hv] using h1
        rw [List.getElem_rotate]
        simp only [TickRing.samples, List.getElem_map, List.getElem_range, List.length_map, List.length_range, hv,
          List.getElem_drop]
        have := hcell (l.length - ringCapacity + i) (by omega) (by omega)
        rw [show (i + l.length % ringCapacity) % ringCapacity = (l.length - ringCapacity + i) % ringCapacity by
          unfold ringCapacity at *; omega, this]
        simp [List.getD, show l.length - ringCapacity + i < l.length by omega]
    rw [← this]
    exact (List.rotate_perm _ _).symm

/-- Feed a node's ticks to its timing state. -/
def Timing.ticks (t : Timing) (l : List Nat) : Timing := l.foldl (fun t d => (t.recordTick d).1) t

/-- C74: over any history the overrun count is the number of ticks longer than the budget, and the worst
overrun is the largest excess, in whole microseconds. -/
theorem overruns_exact (b : Nat) (l : List Nat) :
    ((Timing.new (some b)).ticks l).overruns = (l.filter (b < ·)).length ∧
    ((Timing.new (some b)).ticks l).worstOverrun = ((l.filter (b < ·)).map fun d => d / 1000 - b / 1000).foldl max 0 ∧
    ((Timing.new (some b)).ticks l).ring = (l.map (· / 1000)).foldl TickRing.record TickRing.new := by
  have hbud : ∀ l : List Nat, ((Timing.new (some b)).ticks l).budget = some b := by
    intro l
    induction l using List.reverseRecOn with
    | nil => rfl
    | append_singleton l x ih =>
      simp only [Timing.ticks, List.foldl_append, List.foldl_cons, List.foldl_nil]
      rw [(recordTick_spec _ _).2]; exact ih
  induction l using List.reverseRecOn with
  | nil => exact ⟨rfl, rfl, rfl⟩
  | append_singleton l x ih =>
    obtain ⟨h1, h2, h3⟩ := ih
    have hb := hbud l
    have hstep : (Timing.new (some b)).ticks (l ++ [x]) = (((Timing.new (some b)).ticks l).recordTick x).1 := by
      simp [Timing.ticks, List.foldl_append]
    rw [hstep]
    generalize (Timing.new (some b)).ticks l = t at *
    unfold Timing.recordTick
    simp only [hb]
    by_cases hx : b < x
    · rw [if_pos hx]
      simp only [h1, h2, h3, List.filter_append, List.filter_cons, decide_eq_true hx, if_true, List.filter_nil,
        List.length_append, List.length_singleton, List.map_append, List.map_cons, List.map_nil, List.foldl_append,
        List.foldl_cons, List.foldl_nil, and_self]
    · rw [if_neg hx]
      simp [h1, h2, h3, hx, List.filter_append, List.filter_cons, List.foldl_append]

end Horus.Safety.Monitor
