import Mathlib.Analysis.Real.Sqrt
import Mathlib.Tactic.Ring
import Mathlib.Tactic.FieldSimp
import Mathlib.Tactic.Linarith
import Mathlib.Tactic.Common
import Mathlib.Data.List.Induction
/-
The runtime profiler. Source: /repo/horus_core/src/scheduling/profiler.rs:12-132, and its callers: scheduler/mod.rs:4486-4498,
compute_executor.rs:315-349, async_executor.rs:270-304, event_executor.rs:207-238, rt_executor.rs:278-282, 525-529.
Numbers are real numbers.
-/
namespace Horus.Profiler

/-- profiler.rs:12-32, without `avg_us`, which is always `mean` (line 66). `mn = none` is `f64::MAX`. -/
structure Stats where
  stddev : ℝ
  count : ℕ
  mn : Option ℝ
  mx : ℝ
  failures : ℕ
  rate : ℝ
  mean : ℝ
  m2 : ℝ

/-- profiler.rs:34-48. -/
noncomputable def Stats.default : Stats := ⟨0, 0, none, 0, 0, 0, 0, 0⟩

/-- profiler.rs:52-70 `update`. -/
noncomputable def Stats.update (s : Stats) (x : ℝ) : Stats :=
  let count := s.count + 1
  let delta := x - s.mean
  let mean := s.mean + delta / count
  let delta2 := x - mean
  let m2 := s.m2 + delta * delta2
  { s with count := count, mn := some (match s.mn with | none => x | some m => min m x), mx := max s.mx x, mean := mean, m2 := m2, stddev := if count > 1 then Real.sqrt (m2 / (count - 1 : ℕ)) else s.stddev }

/-- profiler.rs:73-79 `record_failure`. -/
noncomputable def Stats.fail (s : Stats) : Stats :=
  let failures := s.failures + 1
  let total := s.count + failures
  { s with failures := failures, rate := if total > 0 then (failures : ℝ) / total else s.rate }

/-! ### Durations -/

/-- Specification: the mean of a sample. -/
noncomputable def avg (l : List ℝ) : ℝ := l.sum / l.length

/-- Specification: the sum of the squared distances from a point. -/
noncomputable def sq (l : List ℝ) (m : ℝ) : ℝ := (l.map fun x => (x - m) ^ 2).sum

theorem sq_eq (l : List ℝ) (m : ℝ) : sq l m = (l.map fun x => x ^ 2).sum - 2 * m * l.sum + l.length * m ^ 2 := by
  unfold sq
  induction l with
  | nil => simp
  | cons a l ih =>
    simp only [List.map_cons, List.sum_cons, ih, List.length_cons]
    push_cast
    ring

/-- The samples, in order, through `update`. -/
noncomputable def samples (l : List ℝ) : Stats := l.foldl Stats.update Stats.default

theorem samples_snoc (l : List ℝ) (x : ℝ) : samples (l ++ [x]) = (samples l).update x := by
  unfold samples
  rw [List.foldl_append]
  rfl

/-- **The one-pass mean and variance are exact**: after any samples the average is their mean, and the accumulated square sum is the sum of the
squared distances from that mean. -/
theorem welford (l : List ℝ) : (samples l).count = l.length ∧ (samples l).mean * l.length = l.sum ∧ (samples l).m2 = sq l (samples l).mean := by
  induction l using List.reverseRecOn with
  | nil => refine ⟨rfl, ?_, ?_⟩ <;> simp [samples, Stats.default, sq]
  | append_singleton l x ih =>
    obtain ⟨h1, h2, h3⟩ := ih
    rw [samples_snoc]
    have hn : ((l.length : ℝ) + 1) ≠ 0 := by positivity
    have hmean : ((samples l).update x).mean = ((samples l).mean * l.length + x) / (l.length + 1) := by
      show (samples l).mean + (x - (samples l).mean) / ((samples l).count + 1 : ℕ) = _
      rw [h1]
      push_cast
      field_simp
      ring
    refine ⟨?_, ?_, ?_⟩
    · show (samples l).count + 1 = _
      rw [h1, List.length_append]
      rfl
    · rw [hmean, List.length_append, List.sum_append, ← h2]
      push_cast
      simp only [List.length_singleton, List.sum_singleton, Nat.cast_one]
      field_simp
    · have hm2 : ((samples l).update x).m2 = (samples l).m2 + (x - (samples l).mean) * (x - ((samples l).update x).mean) := rfl
      rw [hm2, h3, hmean, sq_eq, sq_eq]
      simp only [List.map_append, List.sum_append, List.length_append, List.map_cons, List.map_nil, List.sum_cons, List.sum_nil, List.length_singleton]
      rw [← h2]
      push_cast
      field_simp
      ring

/-- **The average is the mean and the deviation the sample standard deviation** (n - 1), for two samples or more. -/
theorem stats_spec (l : List ℝ) (h : 2 ≤ l.length) : (samples l).mean = avg l ∧ (samples l).stddev = Real.sqrt (sq l (avg l) / (l.length - 1)) := by
  obtain ⟨h1, h2, h3⟩ := welford l
  have hne : (l.length : ℝ) ≠ 0 := by
    have : l.length ≠ 0 := by omega
    exact_mod_cast this
  have hm : (samples l).mean = avg l := by
    unfold avg
    rw [← h2]
    field_simp
  refine ⟨hm, ?_⟩
  rcases List.eq_nil_or_concat l with h0 | ⟨p, x, hp⟩
  · subst h0; simp at h
  · rw [List.concat_eq_append] at hp
    have hs : (samples l).stddev = Real.sqrt ((samples l).m2 / ((samples l).count - 1 : ℕ)) := by
      rw [hp, samples_snoc]
      have hc : (samples p).count + 1 > 1 := by
        rw [(welford p).1]
        rw [hp, List.length_append] at h
        simp at h
        omega
      show (if (samples p).count + 1 > 1 then _ else _) = _
      rw [if_pos hc]
      rfl
    rw [hs, h3, hm, h1]
    congr 2
    rw [Nat.cast_sub (by omega)]
    simp

/-- With one sample the average is that sample and the deviation 0. -/
theorem one_sample (x : ℝ) : (samples [x]).mean = x ∧ (samples [x]).stddev = 0 := by
  constructor
  · show (0 : ℝ) + (x - 0) / ((0 + 1 : ℕ) : ℝ) = x
    simp
  · unfold samples
    simp [Stats.update, Stats.default]

/-- **The extremes are attained and bound everything** (durations are never negative). -/
theorem extremes (l : List ℝ) (h : l ≠ []) (hpos : ∀ x ∈ l, 0 ≤ x) :
    (∃ m, (samples l).mn = some m ∧ m ∈ l ∧ ∀ x ∈ l, m ≤ x) ∧ (samples l).mx ∈ l ∧ ∀ x ∈ l, x ≤ (samples l).mx := by
  induction l using List.reverseRecOn with
  | nil => exact absurd rfl h
  | append_singleton l x ih =>
    rw [samples_snoc]
    have hx : 0 ≤ x := hpos x (by simp)
    have hmn : ((samples l).update x).mn = some (match (samples l).mn with | none => x | some m => min m x) := rfl
    have hmx : ((samples l).update x).mx = max (samples l).mx x := rfl
    rw [hmn, hmx]
    by_cases hl : l = []
    · subst hl
      have : max (samples []).mx x = x := max_eq_right hx
      rw [this]
      refine ⟨⟨x, rfl, by simp, by simp⟩, by simp, by simp⟩
    · obtain ⟨⟨m, e, hm, hle⟩, hmem, hup⟩ := ih hl (fun y hy => hpos y (List.mem_append_left _ hy))
      rw [e]
      dsimp only
      refine ⟨⟨min m x, rfl, ?_, ?_⟩, ?_, ?_⟩
      · rcases min_choice m x with h' | h' <;> rw [h']
        · exact List.mem_append_left _ hm
        · simp
      · intro y hy
        rcases List.mem_append.1 hy with hy | hy
        · exact le_trans (min_le_left _ _) (hle y hy)
        · rw [List.mem_singleton.1 hy]; exact min_le_right _ _
      · rcases max_choice (samples l).mx x with h' | h' <;> rw [h']
        · exact List.mem_append_left _ hmem
        · simp
      · intro y hy
        rcases List.mem_append.1 hy with hy | hy
        · exact le_trans (hup y hy) (le_max_left _ _)
        · rw [List.mem_singleton.1 hy]; exact le_max_right _ _

/-! ### Failures -/

/-- One tick as the scheduler reports it: the main thread reports a failure and then the duration (scheduler/mod.rs:4491-4497), the executors the
duration and then the failure; both are reported for a failed tick. -/
noncomputable def tick (main : Bool) (s : Stats) (t : ℝ × Bool) : Stats :=
  if t.2 then (if main then s.fail.update t.1 else (s.update t.1).fail) else s.update t.1

noncomputable def run (main : Bool) (h : List (ℝ × Bool)) : Stats := h.foldl (tick main) Stats.default

def bads (h : List (ℝ × Bool)) : ℕ := (h.filter fun t => t.2).length

theorem run_snoc (main : Bool) (h : List (ℝ × Bool)) (t : ℝ × Bool) : run main (h ++ [t]) = tick main (run main h) t := by
  unfold run
  rw [List.foldl_append]
  rfl

theorem bads_snoc (h : List (ℝ × Bool)) (t : ℝ × Bool) : bads (h ++ [t]) = bads h + if t.2 then 1 else 0 := by
  unfold bads
  rw [List.filter_append, List.length_append]
  cases ht : t.2 <;> simp [ht]

/-- The counts: every tick is a sample, every panic a failure, and the durations of failed ticks are in the statistics too. -/
theorem counts (main : Bool) (h : List (ℝ × Bool)) : (run main h).count = h.length ∧ (run main h).failures = bads h ∧
    (run main h).mean = (samples (h.map (·.1))).mean ∧ (run main h).m2 = (samples (h.map (·.1))).m2 := by
  induction h using List.reverseRecOn with
  | nil => exact ⟨rfl, rfl, rfl, rfl⟩
  | append_singleton h t ih =>
    obtain ⟨h1, h2, h3, h4⟩ := ih
    have hc : (samples (h.map (·.1))).count = (run main h).count := by rw [(welford _).1, h1, List.length_map]
    rw [run_snoc, bads_snoc, List.map_append, List.map_singleton, samples_snoc, List.length_append]
    unfold tick
    cases hb : t.2 <;> cases main <;> simp only [Bool.false_eq_true, if_true, if_false, Stats.update, Stats.fail, List.length_singleton, h1, h2, h3, h4, hc] <;>
      simp

/-- **The failure rate is not failures over ticks.** Right after a panic it is failures / (ticks + failures): the failed tick is counted on both
sides (on the main thread, where the failure comes first, the tick itself is not yet counted). -/
theorem rate_after_failure (h : List (ℝ × Bool)) (x : ℝ) :
    (run false (h ++ [(x, true)])).rate = (bads h + 1 : ℕ) / (h.length + 1 + (bads h + 1) : ℕ) ∧
    (run true (h ++ [(x, true)])).rate = (bads h + 1 : ℕ) / (h.length + (bads h + 1) : ℕ) := by
  obtain ⟨h1, h2, _, _⟩ := counts false h
  obtain ⟨g1, g2, _, _⟩ := counts true h
  constructor
  · rw [run_snoc]
    have hp : (run false h).count + 1 + ((run false h).failures + 1) > 0 := by omega
    show (if (run false h).count + 1 + ((run false h).failures + 1) > 0 then (((run false h).failures + 1 : ℕ) : ℝ) / (((run false h).count + 1 + ((run false h).failures + 1) : ℕ) : ℝ) else (run false h).rate) = _
    rw [if_pos hp]
    show (((run false h).failures + 1 : ℕ) : ℝ) / (((run false h).count + 1 + ((run false h).failures + 1) : ℕ) : ℝ) = _
    rw [h1, h2]
  · rw [run_snoc]
    have hp : (run true h).count + ((run true h).failures + 1) > 0 := by omega
    show (if (run true h).count + ((run true h).failures + 1) > 0 then (((run true h).failures + 1 : ℕ) : ℝ) / (((run true h).count + ((run true h).failures + 1) : ℕ) : ℝ) else (run true h).rate) = _
    rw [if_pos hp]
    show (((run true h).failures + 1 : ℕ) : ℝ) / (((run true h).count + ((run true h).failures + 1) : ℕ) : ℝ) = _
    rw [g1, g2]

/-- A node on an executor that fails on every tick has a failure rate of one half. -/
theorem always_failing_half (xs : List ℝ) (x : ℝ) : (run false ((xs.map fun y => (y, true)) ++ [(x, true)])).rate = 1 / 2 := by
  rw [(rate_after_failure _ x).1]
  have hb : bads (xs.map fun y => (y, true)) = xs.length := by
    unfold bads
    rw [List.filter_eq_self.2 (by simp), List.length_map]
  rw [hb, List.length_map]
  have : ((xs.length : ℝ) + 1) ≠ 0 := by positivity
  push_cast
  field_simp
  ring

/-- **The failure rate is not updated by good ticks**: it stays what it was after the last panic, for ever. -/
theorem rate_stale (main : Bool) (h : List (ℝ × Bool)) (g : List ℝ) : (run main (h ++ g.map fun y => (y, false))).rate = (run main h).rate := by
  induction g using List.reverseRecOn with
  | nil => simp
  | append_singleton g y ih =>
    rw [List.map_append, ← List.append_assoc, List.map_singleton, run_snoc]
    show ((run main (h ++ g.map fun y => (y, false))).update y).rate = _
    exact ih

example : (samples [1, 2, 3]).mean = 2 := by
  rw [(stats_spec [1, 2, 3] (by decide)).1]
  norm_num [avg]

example : (run false ([(1, true)] ++ [2, 3, 4].map fun y => (y, false))).rate = 1 / 2 := by
  rw [rate_stale]
  exact always_failing_half [] 1

end Horus.Profiler
