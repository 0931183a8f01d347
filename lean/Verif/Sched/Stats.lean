import Mathlib.Algebra.Order.Field.Rat
import Mathlib.Algebra.Order.BigOperators.Group.List
import Mathlib.Tactic.Linarith
import Mathlib.Tactic.Ring
import Mathlib.Tactic.NormNum
import Mathlib.Data.List.Induction
/-!
C209: a node's timing statistics.

Source: /repo/horus_core/src/core/rt_node.rs:83-215, read by scheduler/mod.rs:4453-4461, types.rs:940-947.
Simplifications: the averages are rational numbers where the code has f64; counters do not wrap.
-/

namespace Horus.RtStats

/-! ### Model -/

/-- rt_node.rs:105-114. Times are nanoseconds, the averages microseconds. -/
structure Stats where
  misses : Nat
  violations : Nat
  worst : Nat
  last : Nat
  jitter : ℚ
  avg : ℚ
  ticks : Nat

/-- `Default`. -/
def init : Stats := ⟨0, 0, 0, 0, 0, 0, 0⟩

inductive Ev
  | exec (d : Nat)
  | miss
  | violation

/-- rt_node.rs:184: `as_micros` drops the rest. -/
def micros (d : Nat) : Nat := d / 1000

/-- rt_node.rs:183-210 `record_execution`. -/
def recordExec (s : Stats) (d : Nat) : Stats :=
  let worst := if s.worst < d then d else s.worst
  if s.ticks + 1 = 1 then { s with worst := worst, last := d, ticks := s.ticks + 1, avg := micros d, jitter := 0 }
  else
    let avg := 1 / 10 * (micros d : ℚ) + (1 - 1 / 10) * s.avg
    { s with worst := worst, last := d, ticks := s.ticks + 1, avg := avg, jitter := 1 / 10 * |(micros d : ℚ) - avg| + (1 - 1 / 10) * s.jitter }

/-- rt_node.rs:178-180, 183-215. -/
def step (s : Stats) : Ev → Stats
  | .exec d => recordExec s d
  | .miss => { s with misses := s.misses + 1 }
  | .violation => { s with violations := s.violations + 1 }

def run (evs : List Ev) : Stats := evs.foldl step init

/-- rt_node.rs:170-175, in microseconds, before the cast. -/
def p99 (s : Stats) : ℚ := s.avg + 233 / 100 * (s.jitter * (12533 / 10000))

/-! ### Specification -/

/-- The execution times of a history. -/
def times : List Ev → List Nat
  | [] => []
  | .exec d :: l => d :: times l
  | _ :: l => times l

def countMiss (l : List Ev) : Nat := l.countP fun e => match e with | .miss => true | _ => false
def countViolation (l : List Ev) : Nat := l.countP fun e => match e with | .violation => true | _ => false

/-! ### Proofs -/

theorem run_snoc (l : List Ev) (e : Ev) : run (l ++ [e]) = step (run l) e := by simp [run]

theorem times_append (a b : List Ev) : times (a ++ b) = times a ++ times b := by
  induction a with
  | nil => rfl
  | cons e a ih => cases e <;> simp [times, ih]

/-- C209. Counters are exact. -/
theorem counts_exact (l : List Ev) : (run l).ticks = (times l).length ∧ (run l).misses = countMiss l ∧ (run l).violations = countViolation l := by
  induction l using List.reverseRecOn with
  | nil => exact ⟨rfl, rfl, rfl⟩
  | append_singleton l e ih =>
    obtain ⟨h1, h2, h3⟩ := ih
    rw [run_snoc, times_append]
    cases e with
    | exec d =>
      have : (recordExec (run l) d).ticks = (run l).ticks + 1 ∧ (recordExec (run l) d).misses = (run l).misses ∧ (recordExec (run l) d).violations = (run l).violations := by
        unfold recordExec; dsimp only; split <;> exact ⟨rfl, rfl, rfl⟩
      refine ⟨?_, ?_, ?_⟩
      · show (recordExec (run l) d).ticks = _
        rw [this.1, h1]; simp [times]
      · show (recordExec (run l) d).misses = _
        rw [this.2.1, h2]; simp [countMiss]
      · show (recordExec (run l) d).violations = _
        rw [this.2.2, h3]; simp [countViolation]
    | miss => exact ⟨by simpa [step, times] using h1, by simp [step, countMiss, h2], by simpa [step, countViolation] using h3⟩
    | violation => exact ⟨by simpa [step, times] using h1, by simpa [step, countMiss] using h2, by simp [step, countViolation, h3]⟩

theorem step_worst (s : Stats) (d : Nat) : (recordExec s d).worst = max s.worst d ∧ (recordExec s d).last = d := by
  unfold recordExec
  dsimp only
  have : (if s.worst < d then d else s.worst) = max s.worst d := by
    rcases Nat.lt_or_ge s.worst d with h | h
    · rw [if_pos h, Nat.max_eq_right (Nat.le_of_lt h)]
    · rw [if_neg (by omega), Nat.max_eq_left h]
  rw [this]
  split <;> exact ⟨rfl, rfl⟩

/-- C209. The worst time is the longest recorded one, and the last time the last one. -/
theorem worst_last_exact (l : List Ev) :
    (∀ d ∈ times l, d ≤ (run l).worst) ∧ (times l ≠ [] → (run l).worst ∈ times l) ∧ ∀ d, (times l).getLast? = some d → (run l).last = d := by
  have key : (∀ d ∈ times l, d ≤ (run l).worst) ∧ (times l = [] → (run l).worst = 0) ∧ (times l ≠ [] → (run l).worst ∈ times l) ∧
      ∀ d, (times l).getLast? = some d → (run l).last = d := by
    induction l using List.reverseRecOn with
    | nil => simp [times, run, init]
    | append_singleton l e ih =>
      obtain ⟨h1, h0, h2, h3⟩ := ih
      rw [run_snoc, times_append]
      cases e with
      | exec d =>
        obtain ⟨w1, w2⟩ := step_worst (run l) d
        refine ⟨?_, ?_, ?_, ?_⟩
        · intro x hx
          show x ≤ (recordExec (run l) d).worst
          rw [w1]
          rcases List.mem_append.1 hx with hx | hx
          · exact Nat.le_trans (h1 x hx) (Nat.le_max_left _ _)
          · simp [times] at hx; subst hx; exact Nat.le_max_right _ _
        · intro h; simp [times] at h
        · intro _
          show (recordExec (run l) d).worst ∈ _
          rw [w1]
          rcases Nat.le_total (run l).worst d with h | h
          · rw [Nat.max_eq_right h]; simp [times]
          · rw [Nat.max_eq_left h]
            by_cases hn : times l = []
            · have := h0 hn
              rw [this] at h ⊢
              have : d = 0 := by omega
              subst this; simp [times]
            · exact List.mem_append_left _ (h2 hn)
        · intro x hx
          simp [times] at hx
          subst hx; exact w2
      | miss => simpa [times, step] using ⟨h1, h0, h2, h3⟩
      | violation => simpa [times, step] using ⟨h1, h0, h2, h3⟩
  exact ⟨key.1, key.2.2⟩

/-- The averages stay within bounds. -/
theorem avg_inv (lo hi : Nat) (l : List Ev) (h : ∀ d ∈ times l, lo ≤ micros d ∧ micros d ≤ hi) :
    (times l = [] → (run l).ticks = 0 ∧ (run l).jitter = 0 ∧ (run l).avg = 0) ∧
    (times l ≠ [] → (lo : ℚ) ≤ (run l).avg ∧ (run l).avg ≤ hi ∧ 0 ≤ (run l).jitter ∧ (run l).jitter ≤ (hi : ℚ) - lo) := by
  induction l using List.reverseRecOn with
  | nil => exact ⟨fun _ => ⟨rfl, rfl, rfl⟩, fun h => absurd rfl h⟩
  | append_singleton l e ih =>
    rw [times_append] at h
    obtain ⟨i0, i1⟩ := ih (fun d hd => h d (List.mem_append_left _ hd))
    rw [run_snoc, times_append]
    cases e with
    | exec d =>
      refine ⟨fun hn => by simp [times] at hn, fun _ => ?_⟩
      obtain ⟨hlo, hhi⟩ := h d (by simp [times])
      have q1 : (lo : ℚ) ≤ (micros d : ℚ) := by exact_mod_cast hlo
      have q2 : (micros d : ℚ) ≤ (hi : ℚ) := by exact_mod_cast hhi
      show (lo : ℚ) ≤ (recordExec (run l) d).avg ∧ (recordExec (run l) d).avg ≤ hi ∧ 0 ≤ (recordExec (run l) d).jitter ∧ (recordExec (run l) d).jitter ≤ (hi : ℚ) - lo
      unfold recordExec
      dsimp only
      by_cases hn : times l = []
      · rw [if_pos (by rw [(i0 hn).1])]
        exact ⟨q1, q2, le_refl _, by dsimp only; linarith⟩
      · obtain ⟨a1, a2, a3, a4⟩ := i1 hn
        have ht : (run l).ticks ≠ 0 := by
          rw [(counts_exact l).1]
          intro h0; exact hn (List.length_eq_zero_iff.1 h0)
        rw [if_neg (by omega)]
        dsimp only
        have ha := abs_nonneg ((micros d : ℚ) - (1 / 10 * (micros d : ℚ) + (1 - 1 / 10) * (run l).avg))
        have hb : |(micros d : ℚ) - (1 / 10 * (micros d : ℚ) + (1 - 1 / 10) * (run l).avg)| ≤ (hi : ℚ) - lo := by
          rw [abs_le]; constructor <;> linarith
        exact ⟨by linarith, by linarith, by linarith, by linarith⟩
    | miss => simpa [times, step] using ⟨i0, i1⟩
    | violation => simpa [times, step] using ⟨i0, i1⟩

/-- C209. The average lies between the shortest and the longest recorded time, in microseconds, and the
jitter between zero and their difference. -/
theorem averages_bounded (l : List Ev) (hne : times l ≠ []) (lo hi : Nat) (h : ∀ d ∈ times l, lo ≤ micros d ∧ micros d ≤ hi) :
    (lo : ℚ) ≤ (run l).avg ∧ (run l).avg ≤ hi ∧ 0 ≤ (run l).jitter ∧ (run l).jitter ≤ (hi : ℚ) - lo :=
  (avg_inv lo hi l h).2 hne

/-- C209. A node that always takes the same time is reported with that time and no jitter. -/
theorem constant_exact (l : List Ev) (hne : times l ≠ []) (c : Nat) (h : ∀ d ∈ times l, micros d = c) :
    (run l).avg = c ∧ (run l).jitter = 0 ∧ p99 (run l) = c := by
  obtain ⟨h1, h2, h3, h4⟩ := averages_bounded l hne c c (fun d hd => by rw [h d hd]; exact ⟨Nat.le_refl _, Nat.le_refl _⟩)
  have e1 : (run l).avg = c := le_antisymm h2 h1
  have e2 : (run l).jitter = 0 := le_antisymm (by linarith) h3
  refine ⟨e1, e2, ?_⟩
  unfold p99; rw [e1, e2]; ring

/-- C209. The 99th percentile estimate is at least the average. -/
theorem estimate_above_average (l : List Ev) : (run l).avg ≤ p99 (run l) := by
  have hj : 0 ≤ (run l).jitter := by
    by_cases hn : times l = []
    · rw [((avg_inv 0 ((times l).map micros).sum l (by rw [hn]; simp)).1 hn).2.1]
    · exact ((avg_inv 0 ((times l).map micros).sum l (fun d hd => ⟨Nat.zero_le _, List.single_le_sum (by simp) _ (List.mem_map_of_mem hd)⟩)).2 hn).2.2.1
  unfold p99; linarith

/-- Disagreement. The estimate is no 99th percentile: here half of all times are more than twice what it
says. -/
theorem estimate_too_low : p99 (run [.exec 0, .exec 1000000]) < 1 / 2 * 1000 := by
  norm_num [run, step, recordExec, init, p99, micros, abs_of_nonneg]

/-- Disagreement. ... and it may be more than any recorded time. -/
theorem estimate_too_high : (1000 : ℚ) < p99 (run [.exec 1000000, .exec 0, .exec 1000000, .exec 0]) := by
  norm_num [run, step, recordExec, init, p99, micros, abs_of_nonneg, abs_of_nonpos]

/-- Disagreement. A node whose ticks take less than a microsecond is reported with an average and a
percentile of zero, whatever the worst time says. -/
theorem fast_node_zero (l : List Ev) (hne : times l ≠ []) (h : ∀ d ∈ times l, d < 1000) : (run l).avg = 0 ∧ p99 (run l) = 0 := by
  obtain ⟨h1, _, h3⟩ := constant_exact l hne 0 (fun d hd => by have := h d hd; unfold micros; omega)
  exact ⟨by exact_mod_cast h1, by exact_mod_cast h3⟩

/-- Non-vacuity: the example of the documentation. -/
example : (run [.exec 95000, .miss, .exec 105000, .exec 100000]).ticks = 3 ∧ (run [.exec 95000, .miss, .exec 105000, .exec 100000]).worst = 105000 := by
  decide +kernel
example : ∀ d ∈ times [.exec 95000, .miss, .exec 105000], 95 ≤ micros d ∧ micros d ≤ 105 := by decide

end Horus.RtStats
