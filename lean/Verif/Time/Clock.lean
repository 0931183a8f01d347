import Mathlib.Tactic.Common
import Mathlib.Tactic.Ring
import Mathlib.Tactic.Linarith
import Mathlib.Tactic.FieldSimp
import Mathlib.Data.Rat.Floor
import Mathlib.Algebra.BigOperators.Group.List.Basic

/-!
Clocks, the replay time line, the timestep against virtual time, the `Rate` limiter, and the periods,
budgets and deadlines derived from frequencies.

Instants and durations are natural numbers of nanoseconds. Frequencies and smoothed periods are exact
rationals where the source uses `f64` (simplification, stated at each definition).
-/

namespace Horus.Clocks

/-- 2^64. -/
def u64 : Nat := 2 ^ 64

/-! ### virtual clock -/

/-- Operations of a virtual clock (clock.rs:172-181). -/
inductive SimOp
  | advance (d : Nat)
  | reset

/-- `SimClock` (clock.rs:166-187): one wrapping 64-bit counter; the duration is truncated to 64 bits
first. -/
def simStep (n : Nat) : SimOp → Nat
  | .advance d => (n + d % u64) % u64
  | .reset => 0

/-- Any sequence of operations from a new clock (clock.rs:159-163). -/
def simNow (ops : List SimOp) : Nat := ops.foldl simStep 0

/-- Durations advanced since the last reset. -/
def sinceReset : List SimOp → List Nat → List Nat
  | [], acc => acc
  | .advance d :: ops, acc => sinceReset ops (acc ++ [d])
  | .reset :: ops, _ => sinceReset ops []

theorem sim_foldl (ops : List SimOp) (acc : List Nat) (n : Nat) (hn : n = acc.sum % u64) :
    ops.foldl simStep n = (sinceReset ops acc).sum % u64 := by
  induction ops generalizing n acc with
  | nil => simpa [sinceReset] using hn
  | cons o ops ih =>
    cases o with
    | advance d =>
      refine ih (acc ++ [d]) _ ?_
      simp only [simStep, List.sum_append, List.sum_cons, List.sum_nil, Nat.add_zero]
      rw [hn, ← Nat.add_mod]
    | reset => exact ih [] 0 (by simp)

/-- C135. The virtual clock shows the sum of all advances since the last reset, for 584 years. -/
theorem virtual_time_is_sum (ops : List SimOp) (hb : (sinceReset ops []).sum < u64) : simNow ops = (sinceReset ops []).sum := by
  have := sim_foldl ops [] 0 (by simp)
  rw [simNow, this, Nat.mod_eq_of_lt hb]

/-- C135. Virtual time never goes backwards while it is only advanced. -/
theorem virtual_time_monotone (ops : List SimOp) (ds : List Nat) (hb : (sinceReset ops []).sum + ds.sum < u64) :
    simNow ops + ds.sum = simNow (ops ++ ds.map .advance) := by
  have key : ∀ (ds acc : List Nat), sinceReset (ds.map .advance) acc = acc ++ ds := by
    intro ds
    induction ds with
    | nil => intro acc; simp [sinceReset]
    | cons d ds ih => intro acc; simp [sinceReset, ih]
  have app : ∀ (a b : List SimOp) (acc : List Nat), sinceReset (a ++ b) acc = sinceReset b (sinceReset a acc) := by
    intro a
    induction a with
    | nil => intros; rfl
    | cons o a ih => intro b acc; cases o <;> simp [sinceReset, ih]
  have e : sinceReset (ops ++ ds.map .advance) [] = sinceReset ops [] ++ ds := by rw [app, key]
  have h2 : simNow (ops ++ ds.map .advance) = _ := virtual_time_is_sum (ops ++ ds.map .advance) (by rw [e, List.sum_append]; exact hb)
  rw [h2, virtual_time_is_sum ops (by omega), e, List.sum_append]

/-! ### replay clock -/

/-- `ReplayClock::now` (clock.rs:231-240). -/
def replayNow (ts : List Nat) (i : Nat) : Nat := ((ts[i]?).or ts.getLast?).getD 0

/-- `ReplayClock::advance` (clock.rs:243-249). -/
def replayAdvance (ts : List Nat) (i : Nat) : Nat := if i < ts.length - 1 then i + 1 else i

/-- Index after `n` advances. -/
def replayIdx (ts : List Nat) : Nat → Nat
  | 0 => 0
  | n + 1 => replayAdvance ts (replayIdx ts n)

theorem replayIdx_eq (ts : List Nat) (n : Nat) : replayIdx ts n = min n (ts.length - 1) := by
  induction n with
  | zero => simp [replayIdx]
  | succ n ih => simp only [replayIdx, replayAdvance, ih]; split_ifs <;> omega

/-- C135. The replay clock shows the recorded times one after another and then stays on the last. -/
theorem replay_steps_through (ts : List Nat) (hne : ts ≠ []) (n : Nat) :
    some (replayNow ts (replayIdx ts n)) = ts[min n (ts.length - 1)]? := by
  have hl : 0 < ts.length := List.length_pos_of_ne_nil hne
  rw [replayIdx_eq]
  have hlt : min n (ts.length - 1) < ts.length := by omega
  simp [replayNow, List.getElem?_eq_getElem hlt]

/-- C135. It never goes back if the recorded times never do. -/
theorem replay_monotone (ts : List Nat) (hs : ts.Pairwise (· ≤ ·)) (n m : Nat) (h : n ≤ m) :
    replayNow ts (replayIdx ts n) ≤ replayNow ts (replayIdx ts m) := by
  by_cases hne : ts = []
  · subst hne; simp [replayNow]
  · have hl : 0 < ts.length := List.length_pos_of_ne_nil hne
    have h1 := replay_steps_through ts hne n
    have h2 := replay_steps_through ts hne m
    have l1 : min n (ts.length - 1) < ts.length := by omega
    have l2 : min m (ts.length - 1) < ts.length := by omega
    rw [List.getElem?_eq_getElem l1] at h1
    rw [List.getElem?_eq_getElem l2] at h2
    rw [Option.some.inj h1, Option.some.inj h2]
    by_cases heq : min n (ts.length - 1) = min m (ts.length - 1)
    · simp only [heq]; exact le_refl _
    · exact (List.pairwise_iff_getElem.mp hs) _ _ l1 l2 (by omega)

/-- `replay_tick_period_ns` (recording.rs:348-358). -/
def replayPeriod (startUs : Nat) (endUs : Option Nat) (total : Nat) : Nat :=
  if total = 0 then 10000000
  else match endUs with
    | none => 10000000
    | some e =>
      if e < startUs then 10000000
      else
        let p := (min ((e - startUs) * 1000) (u64 - 1)) / total
        if p > 0 then p else 10000000

/-- The time line of a replay (recording.rs:138-165); `none`: refused (recording.rs:145-154). -/
def timeline (startUs : Nat) (endUs : Option Nat) (total : Nat) : Option (List Nat) :=
  if total > 100000000 then none
  else some ((List.range total).map (· * replayPeriod startUs endUs total))

/-- C135. The replay time line has one entry per recorded tick, starts at 0, rises evenly, fits in 64
bits, and lies within the recorded span when the recording has a usable one. -/
theorem timeline_even (s : Nat) (e : Option Nat) (total : Nat) (ts : List Nat) (h : timeline s e total = some ts) :
    ts.length = total ∧ (∀ i (hi : i < total), ts[i]? = some (i * replayPeriod s e total)) ∧ 0 < replayPeriod s e total ∧
    (∀ x ∈ ts, x < u64) ∧ ts.Pairwise (· ≤ ·) ∧
    (∀ e', e = some e' → s ≤ e' → total ≤ (e' - s) * 1000 → total ≠ 0 → total * replayPeriod s e total ≤ (e' - s) * 1000) := by
  unfold timeline at h
  split_ifs at h with hc
  cases h
  have hp : 0 < replayPeriod s e total := by
    unfold replayPeriod
    split_ifs
    · omega
    · cases e with
      | none => dsimp only; omega
      | some e => dsimp only; split_ifs <;> first | assumption | omega
  refine ⟨by simp, ?_, hp, ?_, ?_, ?_⟩
  · intro i hi
    simp [hi]
  · intro x hx
    simp only [List.mem_map, List.mem_range] at hx
    obtain ⟨i, hi, rfl⟩ := hx
    have hmul : total * replayPeriod s e total < u64 ∨ replayPeriod s e total = 10000000 := by
      unfold replayPeriod
      split_ifs with h0
      · right; rfl
      · cases e with
        | none => right; rfl
        | some e =>
          dsimp only
          split_ifs with h1 h2
          · right; rfl
          · left
            have h3 := Nat.mul_div_le (min ((e - s) * 1000) (u64 - 1)) total
            have h4 : min ((e - s) * 1000) (u64 - 1) ≤ u64 - 1 := min_le_right _ _
            have h5 : 0 < u64 := by decide
            omega
          · right; rfl
    rcases hmul with hm | hm
    · calc i * replayPeriod s e total ≤ total * replayPeriod s e total := Nat.mul_le_mul_right _ (by omega)
        _ < u64 := hm
    · rw [hm]
      have : u64 = 18446744073709551616 := rfl
      omega
  · rw [List.pairwise_map]
    refine List.Pairwise.imp ?_ List.pairwise_lt_range
    intro a b hab
    exact Nat.mul_le_mul_right _ (by omega)
  · intro e' he hse htot h0
    subst he
    unfold replayPeriod
    rw [if_neg h0]
    dsimp only
    rw [if_neg (by omega)]
    split_ifs with h2
    · calc total * (min ((e' - s) * 1000) (u64 - 1) / total) ≤ min ((e' - s) * 1000) (u64 - 1) := Nat.mul_div_le _ _
        _ ≤ (e' - s) * 1000 := min_le_left _ _
    · exfalso
      apply h2
      apply Nat.div_pos
      · have : u64 = 18446744073709551616 := rfl
        omega
      · omega

/-- C135. The clock is advanced once per *step* of the dependency graph (scheduler/mod.rs:5067-5074),
but the time line has one entry per *tick*: with `k` steps the replay clock runs `k` times too fast.
In tick `r` it shows the time of tick `k * r`, until the time line is used up. -/
theorem replay_clock_k_times_fast (s : Nat) (e : Option Nat) (total k r : Nat) (ts : List Nat) (h : timeline s e total = some ts)
    (hk : k * r < total) : replayNow ts (replayIdx ts (k * r)) = k * r * replayPeriod s e total := by
  obtain ⟨h1, h2, -⟩ := timeline_even s e total ts h
  have hne : ts ≠ [] := by intro h0; rw [h0] at h1; simp at h1; omega
  have h3 := replay_steps_through ts hne (k * r)
  rw [h1, show min (k * r) (total - 1) = k * r by omega, h2 _ hk] at h3
  exact Option.some.inj h3

example : timeline 1000000 (some 3000000) 1000 ≠ none ∧ replayPeriod 1000000 (some 3000000) 1000 = 2000000 := by
  refine ⟨by simp [timeline], by decide⟩

/-! ### timestep against virtual time -/

/-- A deterministic run of `n` rounds on a graph with `k` steps: the node ticks once per round, whatever
its rate, because rate limiting is off (scheduler/mod.rs:4240-4251); it sees `dt` (its own period if it
has one, else the loop period: 4373-4376) and the clock moves on by the loop period `T` after each
step (5067-5075). The list gives `(elapsed(), dt())` of each tick of a node in step `j`. -/
def detTicks (T k j : Nat) (own : Option Nat) (n : Nat) : List (Nat × Nat) :=
  (List.range n).map fun r => ((r * k + j) * T, own.getD T)

/-- C136. In a deterministic run the timesteps a node has been given add up to the virtual time that
passed between its first tick and now, when the node has no rate of its own different from the
loop's and the graph has one step. -/
theorem timesteps_add_up_partial (T n : Nat) (own : Option Nat) (hown : own.getD T = T) (r : Nat) (hr : r < n) :
    (((detTicks T 1 0 own n).take r).map (·.2)).sum = (((detTicks T 1 0 own n)[r]?).map (·.1)).getD 0 := by
  have h1 : (detTicks T 1 0 own n)[r]? = some (r * T, T) := by
    simp [detTicks, hr, hown]
  rw [h1]
  have h2 : ((detTicks T 1 0 own n).take r).map (·.2) = List.replicate r T := by
    rw [detTicks, ← List.map_take, List.take_range, List.map_map, show min r n = r by omega]
    simp only [Function.comp_def, hown]
    rw [List.map_const']
    simp
  rw [h2]
  simp

/-- C136. In general `r` ticks are given `r` timesteps while `r * k` loop periods pass. -/
theorem timesteps_vs_clock (T k j n : Nat) (own : Option Nat) (r : Nat) (hr : r < n) :
    (((detTicks T k j own n).take r).map (·.2)).sum = r * own.getD T ∧
    (detTicks T k j own n)[r]? = some (j * T + r * (k * T), own.getD T) := by
  have h2 : ((detTicks T k j own n).take r).map (·.2) = List.replicate r (own.getD T) := by
    rw [detTicks, ← List.map_take, List.take_range, List.map_map, show min r n = r by omega]
    simp only [Function.comp_def]
    rw [List.map_const']
    simp
  refine ⟨by rw [h2]; simp, ?_⟩
  simp only [detTicks, List.getElem?_map, List.getElem?_range hr, Option.map_some]
  congr 2
  ring

/-- C136. A 10 Hz node in a 100 Hz deterministic scheduler ticks at 100 Hz with timesteps of 100 ms: an
integrator advances ten seconds for each virtual second. -/
theorem own_rate_integrates_too_fast :
    (((detTicks 10000000 1 0 (some 100000000) 101).take 100).map (·.2)).sum = 10 * 1000000000 ∧
    (detTicks 10000000 1 0 (some 100000000) 101)[100]? = some (1000000000, 100000000) := by
  have := timesteps_vs_clock 10000000 1 0 101 (some 100000000) 100 (by omega)
  exact ⟨this.1, by rw [this.2]; rfl⟩

/-- C136. In a pipeline of three steps an integrator advances one second for three virtual seconds. -/
theorem pipeline_integrates_too_slowly :
    (((detTicks 10000000 3 0 none 101).take 100).map (·.2)).sum = 1000000000 ∧
    (detTicks 10000000 3 0 none 101)[100]? = some (3 * 1000000000, 10000000) := by
  have := timesteps_vs_clock 10000000 3 0 101 none 100 (by omega)
  exact ⟨this.1, by rw [this.2]; rfl⟩

/-! ### Rate -/

/-- State of a `Rate` (timer.rs:55-60). The smoothed period is an exact rational; the source uses
`f64` seconds rounded to nanoseconds. -/
structure Rate where
  period : Nat
  last : Nat
  smoothed : Option Rat

/-- `Rate::new` at real time `t` (timer.rs:68-75). -/
def Rate.new (period t : Nat) : Rate := { period := period, last := t, smoothed := none }

/-- Timing of one call of `sleep`: called at `c`, woken `over` late, `gap` between the two clock reads
of the reset branch. -/
structure Nap where
  c : Nat
  over : Nat
  gap : Nat

/-- `Rate::sleep` (timer.rs:81-103): new state and time of return. -/
def Rate.sleep (s : Rate) (n : Nap) : Rate × Nat :=
  let elapsed := n.c - s.last
  let sm : Rat := match s.smoothed with
    | none => elapsed
    | some p => 9 / 10 * p + 1 / 10 * elapsed
  let woke := if elapsed ≤ s.period then n.c + (s.period - elapsed) + n.over else n.c
  let last := s.last + s.period
  if woke - last > s.period then ({ s with last := woke + n.gap, smoothed := some sm }, woke + n.gap)
  else ({ s with last := last, smoothed := some sm }, woke)

/-- `is_late` at real time `t` (timer.rs:140-142). -/
def Rate.isLate (s : Rate) (t : Nat) : Bool := decide (t - s.last ≥ s.period)

/-- State and return time after `n` calls, started at `t0`; the 0-th "return" is creation. -/
def Rate.at (P t0 : Nat) (nap : Nat → Nap) : Nat → Rate × Nat
  | 0 => (Rate.new P t0, t0)
  | n + 1 => (Rate.at P t0 nap n).1.sleep (nap n)

/-- Calls happen after the previous return. -/
def Causal (P t0 : Nat) (nap : Nat → Nap) : Prop := ∀ n, (Rate.at P t0 nap n).2 ≤ (nap n).c

/-- Time of the `n`-th return. -/
def ret (P t0 : Nat) (nap : Nat → Nap) (n : Nat) : Nat := (Rate.at P t0 nap n).2

theorem sleep_facts (s : Rate) (n : Nap) (hc : s.last ≤ n.c) :
    (s.sleep n).1.period = s.period ∧ s.last + s.period ≤ (s.sleep n).1.last ∧ (s.sleep n).1.last ≤ (s.sleep n).2 ∧
    (s.sleep n).2 ≤ (s.sleep n).1.last + s.period := by
  unfold Rate.sleep
  dsimp only
  split_ifs with h1 h2 h2 <;> refine ⟨rfl, ?_, ?_, ?_⟩ <;> dsimp only <;> omega

theorem at_inv (P t0 : Nat) (nap : Nat → Nap) (hc : Causal P t0 nap) (n : Nat) :
    (Rate.at P t0 nap n).1.period = P ∧ (Rate.at P t0 nap n).1.last ≤ ret P t0 nap n ∧ ret P t0 nap n ≤ (Rate.at P t0 nap n).1.last + P := by
  induction n with
  | zero => exact ⟨rfl, le_refl _, Nat.le_add_right _ _⟩
  | succ n ih =>
    obtain ⟨h1, h2, h3⟩ := ih
    have f := sleep_facts (Rate.at P t0 nap n).1 (nap n) (le_trans h2 (hc n))
    rw [h1] at f
    exact ⟨f.1, f.2.2.1, f.2.2.2⟩

theorem last_grows (P t0 : Nat) (nap : Nat → Nap) (hc : Causal P t0 nap) (i d : Nat) :
    (Rate.at P t0 nap i).1.last + d * P ≤ (Rate.at P t0 nap (i + d)).1.last := by
  induction d with
  | zero => simp
  | succ d ih =>
    obtain ⟨h1, h2, -⟩ := at_inv P t0 nap hc (i + d)
    have f := (sleep_facts (Rate.at P t0 nap (i + d)).1 (nap (i + d)) (le_trans h2 (hc (i + d)))).2.1
    rw [h1] at f
    have : (Rate.at P t0 nap (i + (d + 1))).1 = ((Rate.at P t0 nap (i + d)).1.sleep (nap (i + d))).1 := rfl
    rw [this]
    have e : (d + 1) * P = d * P + P := by ring
    omega

/-- C137. A loop that calls `sleep` once per cycle never runs faster than the configured rate: the
`n`-th return is at least `n` periods after creation, whatever the work takes. -/
theorem never_faster (P t0 : Nat) (nap : Nat → Nap) (hc : Causal P t0 nap) (n : Nat) : t0 + n * P ≤ ret P t0 nap n := by
  have h1 := last_grows P t0 nap hc 0 n
  have h2 := (at_inv P t0 nap hc n).2.1
  rw [Nat.zero_add] at h1
  have h0 : (Rate.at P t0 nap 0).1.last = t0 := rfl
  omega

/-- C137. In any window: between the `i`-th and the `j`-th return lie at least `j - i - 1` periods, so
after a slow cycle at most one cycle is made up for. -/
theorem at_most_one_catch_up (P t0 : Nat) (nap : Nat → Nap) (hc : Causal P t0 nap) (i d : Nat) :
    ret P t0 nap i + d * P ≤ ret P t0 nap (i + (d + 1)) := by
  have h1 := last_grows P t0 nap hc i (d + 1)
  have h2 := (at_inv P t0 nap hc (i + (d + 1))).2.1
  have h3 := (at_inv P t0 nap hc i).2.2
  have e : (d + 1) * P = d * P + P := by ring
  omega

/-- C137. No drift: as long as no return is more than one period late, cycle starts stay on the grid of
whole periods, and a cycle whose work fits ends on the grid, late by no more than the wake-up was. -/
theorem no_drift (P t0 : Nat) (nap : Nat → Nap) (hc : Causal P t0 nap) (n : Nat) (hlate : ∀ j, j ≤ n → ret P t0 nap j ≤ t0 + (j + 1) * P) :
    (Rate.at P t0 nap n).1.last = t0 + n * P ∧
    ∀ m, n = m + 1 → (nap m).c ≤ t0 + n * P → ret P t0 nap n = t0 + n * P + (nap m).over := by
  have grid : ∀ m, m ≤ n → (Rate.at P t0 nap m).1.last = t0 + m * P := by
    intro m
    induction m with
    | zero => intro _; simp [Rate.at, Rate.new]
    | succ m ih =>
      intro hm
      have hl := ih (by omega)
      obtain ⟨h1, h2, -⟩ := at_inv P t0 nap hc m
      have hr : ((Rate.at P t0 nap m).1.sleep (nap m)).2 ≤ t0 + (m + 1 + 1) * P := hlate (m + 1) hm
      show ((Rate.at P t0 nap m).1.sleep (nap m)).1.last = _
      have e : (m + 1) * P = m * P + P := by ring
      have e2 : (m + 1 + 1) * P = m * P + P + P := by ring
      unfold Rate.sleep at hr ⊢
      rw [hl, h1] at *
      dsimp only at hr ⊢
      rw [e2] at hr
      split_ifs at hr ⊢ with h3 h4 h4
      · dsimp only at *; omega
      · dsimp only at *; omega
      · dsimp only at *; omega
      · dsimp only at *; omega
  refine ⟨grid n (le_refl _), ?_⟩
  intro m hm hfit
  subst hm
  have hl := grid m (by omega)
  obtain ⟨h1, h2, -⟩ := at_inv P t0 nap hc m
  have hcm := hc m
  have hcm' : (Rate.at P t0 nap m).1.last ≤ (nap m).c := le_trans h2 hcm
  have hr : ((Rate.at P t0 nap m).1.sleep (nap m)).2 ≤ t0 + (m + 1 + 1) * P := hlate (m + 1) (le_refl _)
  show ((Rate.at P t0 nap m).1.sleep (nap m)).2 = _
  have e : (m + 1) * P = m * P + P := by ring
  have e2 : (m + 1 + 1) * P = m * P + P + P := by ring
  unfold Rate.sleep at hr ⊢
  rw [hl] at hcm'
  rw [hl, h1] at *
  dsimp only at hr ⊢
  rw [e2] at hr
  rw [e] at hfit ⊢
  split_ifs at hr ⊢ with h3 h4 h4
  · dsimp only at *; omega
  · dsimp only at *; omega
  · omega
  · omega

/-- Naps of a loop that works `w` each cycle and always wakes on time. -/
def steady (P t0 w : Nat) (n : Nat) : Nap := { c := t0 + n * P + w, over := 0, gap := 1 }

theorem steady_at (P t0 w : Nat) (hw : w ≤ P) (n : Nat) :
    (Rate.at P t0 (steady P t0 w) n).1.period = P ∧ (Rate.at P t0 (steady P t0 w) n).1.last = t0 + n * P ∧ ret P t0 (steady P t0 w) n = t0 + n * P ∧
    (0 < n → (Rate.at P t0 (steady P t0 w) n).1.smoothed = some (w : Rat)) := by
  induction n with
  | zero => simp [Rate.at, Rate.new, ret]
  | succ n ih =>
    obtain ⟨h1, h2, h3, h4⟩ := ih
    have e : (n + 1) * P = n * P + P := by ring
    show ((Rate.at P t0 (steady P t0 w) n).1.sleep (steady P t0 w n)).1.period = P ∧ ((Rate.at P t0 (steady P t0 w) n).1.sleep (steady P t0 w n)).1.last = _ ∧
      ((Rate.at P t0 (steady P t0 w) n).1.sleep (steady P t0 w n)).2 = _ ∧ (_ → ((Rate.at P t0 (steady P t0 w) n).1.sleep (steady P t0 w n)).1.smoothed = _)
    have hel : (steady P t0 w n).c - (Rate.at P t0 (steady P t0 w) n).1.last = w := by rw [h2]; simp [steady]
    have hcv : (steady P t0 w n).c = t0 + n * P + w := rfl
    have hov : (steady P t0 w n).over = 0 := rfl
    unfold Rate.sleep
    dsimp only
    rw [hel, h1, if_pos hw, h2, hcv, hov, if_neg (by omega)]
    refine ⟨rfl, by dsimp only; omega, by dsimp only; omega, fun _ => ?_⟩
    dsimp only
    cases n with
    | zero => simp [Rate.at, Rate.new]
    | succ n =>
      rw [h4 (by omega)]
      congr 1
      ring

/-- C137. `actual_hz` does not report the frequency achieved: a loop that works `w` in each period `P` and
wakes on time runs at exactly one cycle per period, and `actual_hz` is `1/w`. -/
theorem actual_rate_reports_work (P t0 w n : Nat) (hw : w ≤ P) :
    ret P t0 (steady P t0 w) (n + 1) - ret P t0 (steady P t0 w) n = P ∧ (Rate.at P t0 (steady P t0 w) (n + 1)).1.smoothed = some (w : Rat) := by
  obtain ⟨-, -, h3, -⟩ := steady_at P t0 w hw n
  obtain ⟨-, -, h3', h4'⟩ := steady_at P t0 w hw (n + 1)
  refine ⟨?_, h4' (by omega)⟩
  rw [h3, h3']
  have e : (n + 1) * P = n * P + P := by ring
  omega

/-- Naps of a loop whose work takes `W`, more than two periods. -/
def overrun (t0 W : Nat) (n : Nat) : Nap := { c := t0 + (n + 1) * W, over := 0, gap := 0 }

/-- C137. The smoothed cycle time forgets an outlier by a tenth per call: from an estimate `p`, after
`n` calls that each see `e`, what is left of the error is `(9/10)^n` of it. -/
theorem outlier_forgotten (P t0 : Nat) (nap : Nat → Nap) (i n e : Nat) (p : Rat) (h0 : (Rate.at P t0 nap i).1.smoothed = some p)
    (he : ∀ j, j < n → (nap (i + j)).c - (Rate.at P t0 nap (i + j)).1.last = e) :
    (Rate.at P t0 nap (i + n)).1.smoothed = some (e + (9 / 10) ^ n * (p - e)) := by
  induction n with
  | zero => rw [Nat.add_zero, h0]; congr 1; ring
  | succ n ih =>
    have h1 := ih (fun j hj => he j (by omega))
    have h2 := he n (by omega)
    show ((Rate.at P t0 nap (i + n)).1.sleep (nap (i + n))).1.smoothed = _
    unfold Rate.sleep
    dsimp only
    rw [h2, h1]
    dsimp only
    split_ifs <;> dsimp only <;> congr 1 <;> ring

/-- Non-vacuity: one cycle of 100, then cycles of 10, with a period of 10. -/
example : (Rate.at 10 0 (fun n => { c := 100 + 10 * n, over := 0, gap := 0 }) (1 + 2)).1.smoothed = some (10 + (9 / 10) ^ 2 * (100 - 10)) :=
  outlier_forgotten 10 0 _ 1 2 10 100 (by decide +kernel) (by decide +kernel)

/-- C137. It is exact for a loop that takes more than two periods every cycle. -/
theorem actual_rate_overrun_partial (P t0 W n : Nat) (hW : 2 * P < W) :
    ret P t0 (overrun t0 W) n = t0 + n * W ∧ (0 < n → (Rate.at P t0 (overrun t0 W) n).1.smoothed = some (W : Rat)) := by
  have go : (Rate.at P t0 (overrun t0 W) n).1.period = P ∧ (Rate.at P t0 (overrun t0 W) n).1.last = t0 + n * W ∧ ret P t0 (overrun t0 W) n = t0 + n * W ∧
      (0 < n → (Rate.at P t0 (overrun t0 W) n).1.smoothed = some (W : Rat)) := by
    induction n with
    | zero => simp [Rate.at, Rate.new, ret]
    | succ n ih =>
      obtain ⟨h1, h2, h3, h4⟩ := ih
      have e : (n + 1) * W = n * W + W := by ring
      show ((Rate.at P t0 (overrun t0 W) n).1.sleep (overrun t0 W n)).1.period = P ∧ ((Rate.at P t0 (overrun t0 W) n).1.sleep (overrun t0 W n)).1.last = _ ∧
        ((Rate.at P t0 (overrun t0 W) n).1.sleep (overrun t0 W n)).2 = _ ∧ (_ → ((Rate.at P t0 (overrun t0 W) n).1.sleep (overrun t0 W n)).1.smoothed = _)
      have hcv : (overrun t0 W n).c = t0 + (n + 1) * W := rfl
      have hov : (overrun t0 W n).over = 0 := rfl
      have hgv : (overrun t0 W n).gap = 0 := rfl
      have hel : (overrun t0 W n).c - (Rate.at P t0 (overrun t0 W) n).1.last = W := by rw [h2, hcv]; omega
      unfold Rate.sleep
      dsimp only
      rw [hel, h1, if_neg (show ¬ W ≤ P by omega), h2, hcv, hgv, if_pos (by omega)]
      refine ⟨rfl, by dsimp only; omega, by dsimp only; omega, fun _ => ?_⟩
      dsimp only
      cases n with
      | zero => simp [Rate.at, Rate.new]
      | succ n =>
        rw [h4 (by omega)]
        congr 1
        ring
  exact ⟨go.2.2.1, go.2.2.2⟩

/-- C137. `is_late` tells, between calls, whether the period of the current cycle is over. -/
theorem late_iff (P t0 : Nat) (nap : Nat → Nap) (hc : Causal P t0 nap) (n t : Nat) (ht : ret P t0 nap n ≤ t) :
    (Rate.at P t0 nap n).1.isLate t = true ↔ (Rate.at P t0 nap n).1.last + P ≤ t := by
  obtain ⟨h1, h2, -⟩ := at_inv P t0 nap hc n
  simp only [Rate.isLate, decide_eq_true_eq, h1]
  omega

/-- A loop with a period of 10 that works 3, then 25 (more than two periods late), then 4. -/
example : let nap : Nat → Nap := fun n => if n = 0 then { c := 103, over := 1, gap := 1 } else if n = 1 then { c := 136, over := 0, gap := 1 } else { c := 141 + 10 * (n - 2), over := 0, gap := 1 }
    ret 10 100 nap 1 = 111 ∧ ret 10 100 nap 2 = 137 ∧ ret 10 100 nap 3 = 147 := by decide

example : Causal 10 100 (steady 10 100 3) := by
  intro n
  have := (steady_at 10 100 3 (by omega) n).2.2.1
  show ret 10 100 (steady 10 100 3) n ≤ 100 + n * 10 + 3
  omega

/-! ### frequencies -/

/-- `Duration::from_secs_f64` of a rational number of seconds, rounded to the nearest nanosecond, half
up (simplification: the source divides in `f64` and rounds ties to even). -/
def nanos (s : Rat) : Nat := ⌊s * 1000000000 + 1 / 2⌋.toNat

/-- `Frequency::period` (duration_ext.rs:66-68). -/
def period (hz : Rat) : Nat := nanos (1 / hz)

/-- `Frequency::budget_default` (duration_ext.rs:75-77). -/
def budgetDefault (hz : Rat) : Nat := nanos (8 / 10 / hz)

/-- `Frequency::deadline_default` (duration_ext.rs:84-86). -/
def deadlineDefault (hz : Rat) : Nat := nanos (95 / 100 / hz)

theorem nanos_mono {a b : Rat} (h : a ≤ b) : nanos a ≤ nanos b := by
  unfold nanos
  apply Int.toNat_le_toNat
  apply Int.floor_le_floor
  linarith

theorem nanos_lt {a b : Rat} (ha : 0 ≤ a) (h : a * 1000000000 + 1 ≤ b * 1000000000) : nanos a < nanos b := by
  unfold nanos
  have h1 : ⌊a * 1000000000 + 1 / 2⌋ + 1 ≤ ⌊b * 1000000000 + 1 / 2⌋ := by
    rw [← Int.floor_add_one]
    exact Int.floor_le_floor (by linarith)
  have h2 : 0 ≤ ⌊a * 1000000000 + 1 / 2⌋ := Int.floor_nonneg.mpr (by linarith)
  omega

/-- C138. For every frequency the default budget is at most the default deadline, and that at most the
period. -/
theorem budget_deadline_period (hz : Rat) (h : 0 < hz) : budgetDefault hz ≤ deadlineDefault hz ∧ deadlineDefault hz ≤ period hz := by
  constructor
  · apply nanos_mono
    exact div_le_div_of_nonneg_right (by norm_num) h.le
  · apply nanos_mono
    exact div_le_div_of_nonneg_right (by norm_num) h.le

/-- C138. Up to 50 MHz they are different, so there is time between the end of the budget, the deadline
and the next tick. -/
theorem headroom (hz : Rat) (h : 0 < hz) (hmax : hz ≤ 50000000) : budgetDefault hz < deadlineDefault hz ∧ deadlineDefault hz < period hz := by
  have hinv : (20 : Rat) ≤ 1000000000 / hz := by
    rw [le_div_iff₀ h]; linarith
  constructor
  · apply nanos_lt (by positivity)
    have e1 : (8 / 10 / hz) * 1000000000 = 8 / 10 * (1000000000 / hz) := by ring
    have e2 : (95 / 100 / hz) * 1000000000 = 95 / 100 * (1000000000 / hz) := by ring
    rw [e1, e2]; linarith
  · apply nanos_lt (by positivity)
    have e1 : (95 / 100 / hz) * 1000000000 = 95 / 100 * (1000000000 / hz) := by ring
    have e2 : (1 / hz) * 1000000000 = 1000000000 / hz := by ring
    rw [e1, e2]; linarith

/-- C138. The period is within half a nanosecond of `1/f`. -/
theorem period_accurate (hz : Rat) (h : 0 < hz) : |(period hz : Rat) - 1000000000 / hz| ≤ 1 / 2 := by
  unfold period nanos
  have e : (1 / hz) * 1000000000 = 1000000000 / hz := by ring
  rw [e]
  have hp : (0 : Rat) < 1000000000 / hz := by positivity
  have h2 : 0 ≤ ⌊1000000000 / hz + 1 / 2⌋ := Int.floor_nonneg.mpr (by linarith)
  have hc : ((⌊1000000000 / hz + 1 / 2⌋.toNat : Nat) : Rat) = ((⌊1000000000 / hz + 1 / 2⌋ : Int) : Rat) := by
    rw [← Int.cast_natCast, Int.toNat_of_nonneg h2]
  rw [hc]
  have h3 := Int.floor_le (1000000000 / hz + 1 / 2)
  have h4 := Int.lt_floor_add_one (1000000000 / hz + 1 / 2)
  rw [abs_le]
  constructor <;> linarith

/-- C138. Above 2 GHz the period is zero: a node "at 3 GHz" has no period, budget or deadline at all. -/
theorem absurd_rate_has_no_period (hz : Rat) (h : 2000000000 < hz) : period hz = 0 ∧ budgetDefault hz = 0 ∧ deadlineDefault hz = 0 := by
  have hpos : 0 < hz := by linarith
  have hz1 : 1000000000 / hz < 1 / 2 := by rw [div_lt_iff₀ hpos]; linarith
  have hp : period hz = 0 := by
    unfold period nanos
    have e : (1 / hz) * 1000000000 = 1000000000 / hz := by ring
    rw [e]
    have : ⌊1000000000 / hz + 1 / 2⌋ ≤ 0 := by
      rw [← Int.lt_add_one_iff, Int.floor_lt]
      push_cast; linarith
    omega
  obtain ⟨h1, h2⟩ := budget_deadline_period hz hpos
  omega

example : period 100 = 10000000 ∧ budgetDefault 100 = 8000000 ∧ deadlineDefault 100 = 9500000 := by
  refine ⟨?_, ?_, ?_⟩
  · simp only [period, nanos]; norm_num; rfl
  · simp only [budgetDefault, nanos]; norm_num; rfl
  · simp only [deadlineDefault, nanos]; norm_num; rfl

end Horus.Clocks
