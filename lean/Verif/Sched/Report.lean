import Mathlib.Data.List.Sort
import Mathlib.Tactic.Common
import Mathlib.Tactic.Linarith
/-!
C208: the real-time readiness report.

Source: /repo/horus_core/src/scheduling/rt_report.rs:57-148, 252-255, 283-343.
Times are nanoseconds. Simplifications: percentiles' places are computed exactly where the code multiplies
in f64; only the parts of the report that say something about readiness are kept.
-/

namespace Horus.RtReport

/-! ### Model -/

/-- rt_report.rs:324-327: the time between one tick and the next. -/
def deltas : List Nat → List Nat
  | a :: b :: l => (b - a) :: deltas (b :: l)
  | _ => []

/-- rt_report.rs:283-292, without the mean, which is `total` over `samples`. -/
structure Jitter where
  samples : Nat
  total : Nat
  min : Nat
  p50 : Nat
  p99 : Nat
  p999 : Nat
  max : Nat
  deriving DecidableEq

/-- The `i`-th entry of a vector, which panics past the end; here zero (see `places_inside`). -/
def nth (l : List Nat) (i : Nat) : Nat := l.getD i 0

/-- rt_report.rs:311-343. -/
def measure (ts : List Nat) : Jitter :=
  if ts.length < 2 then ⟨0, 0, 0, 0, 0, 0, 0⟩
  else
    let s := (deltas ts).insertionSort (· ≤ ·)
    let n := s.length
    ⟨n, (deltas ts).sum, nth s 0, nth s (n / 2), nth s (n * 99 / 100), nth s (Nat.min (n * 999 / 1000) (n - 1)), nth s (n - 1)⟩

/-- What the operating system offers. -/
structure Caps where
  preemptRt : Bool
  memoryLocking : Bool
  maxPriority : Nat
  isolated : Nat
  deriving DecidableEq

inductive Grade | production | standard | development
  deriving DecidableEq

inductive Issue | noPreempt | noFifo | noLock | over500 | over50
  deriving DecidableEq

/-- rt_report.rs:112-120; the figures are compared in microseconds there. -/
def grade (c : Caps) (j : Jitter) : Grade :=
  if c.preemptRt ∧ c.memoryLocking ∧ 0 < c.maxPriority ∧ j.p99 < 50000 then .production
  else if 0 < c.maxPriority ∧ j.p99 < 500000 then .standard
  else .development

/-- rt_report.rs:75-110: what is listed as an issue; with none the report says that the system is ready
(rt_report.rs:252-255). -/
def issues (c : Caps) (j : Jitter) : List Issue :=
  (if c.preemptRt then [] else [.noPreempt]) ++ (if c.maxPriority = 0 then [.noFifo] else []) ++ (if c.memoryLocking then [] else [.noLock]) ++
    (if 500000 < j.p99 then [.over500] else []) ++ (if 50000 < j.p99 ∧ c.preemptRt then [.over50] else [])

/-! ### Specification -/

/-- How far the tick that ended interval `d` came off the period of a millisecond. -/
def off (d : Nat) : Nat := (d - 1000000) + (1000000 - d)

/-- A clock that keeps the benchmark's rate of 1 kHz to within half a millisecond on every tick. -/
def Steady (ts : List Nat) : Prop := ∀ d ∈ deltas ts, off d ≤ 500000

/-! ### Proofs -/

theorem deltas_length (ts : List Nat) : (deltas ts).length = ts.length - 1 := by
  induction ts with
  | nil => rfl
  | cons a l ih => cases l with | nil => rfl | cons b l => simp only [deltas, List.length_cons] at *; omega

theorem deltas_total (ts : List Nat) (h : ts.Pairwise (· ≤ ·)) (a b : Nat) (ha : ts.head? = some a) (hb : ts.getLast? = some b) :
    (deltas ts).sum = b - a ∧ a ≤ b := by
  induction ts generalizing a with
  | nil => simp at ha
  | cons x l ih =>
    simp at ha; subst ha
    cases l with
    | nil => simp at hb; subst hb; exact ⟨by simp [deltas], Nat.le_refl _⟩
    | cons y l =>
      rw [List.pairwise_cons] at h
      have hxy := h.1 y (by simp)
      rw [List.getLast?_cons_cons] at hb
      obtain ⟨e, l2⟩ := ih h.2 y rfl hb
      rw [deltas, List.sum_cons, e]; omega

theorem count_split (l : List Nat) (p : Nat → Bool) (i : Nat) (hl : ∀ (j : Nat) (h : j < l.length), j ≤ i → p l[j] = true) (hi : i < l.length) :
    i + 1 ≤ l.countP p := by
  have h1 : (l.take (i + 1)).countP p = (l.take (i + 1)).length := by
    rw [List.countP_eq_length]
    intro a ha
    obtain ⟨j, hj, rfl⟩ := List.mem_iff_getElem.1 ha
    rw [List.getElem_take]
    rw [List.length_take] at hj
    exact hl j _ (by omega)
  have h2 : (l.take (i + 1)).countP p ≤ l.countP p := (List.take_sublist _ _).countP_le
  rw [h1, List.length_take] at h2
  omega

theorem count_upper (l : List Nat) (p : Nat → Bool) (i : Nat) (hl : ∀ (j : Nat) (h : j < l.length), i ≤ j → p l[j] = true) :
    l.length - i ≤ l.countP p := by
  have h1 : (l.drop i).countP p = (l.drop i).length := by
    rw [List.countP_eq_length]
    intro a ha
    obtain ⟨j, hj, rfl⟩ := List.mem_iff_getElem.1 ha
    rw [List.getElem_drop]
    exact hl (i + j) _ (by omega)
  have h2 : (l.drop i).countP p ≤ l.countP p := (List.drop_sublist _ _).countP_le
  rw [h1, List.length_drop] at h2
  exact h2

/-- The `i`-th of a sorted copy is one of the figures, more than `i` figures are at most it, and all
but `i` are at least it. -/
theorem order_stat (ds : List Nat) (i : Nat) (hi : i < ds.length) :
    nth (ds.insertionSort (· ≤ ·)) i ∈ ds ∧
    i + 1 ≤ ds.countP (fun d => decide (d ≤ nth (ds.insertionSort (· ≤ ·)) i)) ∧
    ds.length - i ≤ ds.countP (fun d => decide (nth (ds.insertionSort (· ≤ ·)) i ≤ d)) := by
  have hp := List.perm_insertionSort (· ≤ ·) ds
  have hs := List.pairwise_insertionSort (r := ((· ≤ ·) : Nat → Nat → Prop)) ds
  generalize ds.insertionSort (· ≤ ·) = s at *
  have hl : i < s.length := by rw [hp.length_eq]; exact hi
  have e : nth s i = s[i] := by simp [nth, List.getD_eq_getElem?_getD, List.getElem?_eq_getElem hl]
  have mono : ∀ (a b : Nat) (ha : a < s.length) (hb : b < s.length), a ≤ b → s[a] ≤ s[b] := by
    intro a b ha hb hab
    rcases Nat.lt_or_ge a b with h | h
    · exact List.pairwise_iff_getElem.1 hs a b ha hb h
    · have : a = b := by omega
      subst this; exact Nat.le_refl _
  rw [e]
  refine ⟨hp.mem_iff.1 (List.getElem_mem hl), ?_, ?_⟩
  · rw [← hp.countP_eq]
    exact count_split s _ i (fun j hj hji => by simpa using mono j i hj hl hji) hl
  · rw [← hp.countP_eq, ← hp.length_eq]
    exact count_upper s _ i (fun j hj hij => by simpa using mono i j hl hj hij)

theorem measure_long (ts : List Nat) (h : 2 ≤ ts.length) :
    measure ts = ⟨(deltas ts).length, (deltas ts).sum, nth ((deltas ts).insertionSort (· ≤ ·)) 0, nth ((deltas ts).insertionSort (· ≤ ·)) ((deltas ts).length / 2),
      nth ((deltas ts).insertionSort (· ≤ ·)) ((deltas ts).length * 99 / 100),
      nth ((deltas ts).insertionSort (· ≤ ·)) (Nat.min ((deltas ts).length * 999 / 1000) ((deltas ts).length - 1)),
      nth ((deltas ts).insertionSort (· ≤ ·)) ((deltas ts).length - 1)⟩ := by
  unfold measure
  rw [if_neg (by omega)]
  dsimp only
  rw [(List.perm_insertionSort (· ≤ ·) (deltas ts)).length_eq]

/-- C208. No figure is read past the end of the measurements: the report never panics on them. -/
theorem places_inside (ts : List Nat) (h : 2 ≤ ts.length) :
    0 < (deltas ts).length ∧ (deltas ts).length / 2 < (deltas ts).length ∧ (deltas ts).length * 99 / 100 < (deltas ts).length ∧
    Nat.min ((deltas ts).length * 999 / 1000) ((deltas ts).length - 1) < (deltas ts).length := by
  have := deltas_length ts
  refine ⟨by omega, by omega, by omega, ?_⟩
  exact Nat.lt_of_le_of_lt (Nat.min_le_right _ _) (by omega)

/-- C208. The reported minimum and maximum are measured values, and bound all of them. -/
theorem min_max_exact (ts : List Nat) (h : 2 ≤ ts.length) :
    (measure ts).min ∈ deltas ts ∧ (measure ts).max ∈ deltas ts ∧ ∀ d ∈ deltas ts, (measure ts).min ≤ d ∧ d ≤ (measure ts).max := by
  have hl := deltas_length ts
  rw [measure_long ts h]
  dsimp only
  obtain ⟨a1, _, a3⟩ := order_stat (deltas ts) 0 (by omega)
  obtain ⟨b1, b2, _⟩ := order_stat (deltas ts) ((deltas ts).length - 1) (by omega)
  refine ⟨a1, b1, fun d hd => ⟨?_, ?_⟩⟩
  · have := List.countP_eq_length.1 (Nat.le_antisymm (List.countP_le_length) (by simpa using a3)) d hd
    simpa using this
  · have := List.countP_eq_length.1 (Nat.le_antisymm (List.countP_le_length) (show (deltas ts).length ≤ _ from Nat.le_trans (by omega) b2)) d hd
    simpa using this

/-- C208. The reported percentiles are percentiles: at least the named share of the intervals is no
longer, and at least the rest is no shorter. -/
theorem percentiles_exact (ts : List Nat) (h : 2 ≤ ts.length) :
    let n := (deltas ts).length
    let le := fun x => (deltas ts).countP fun d => decide (d ≤ x)
    let ge := fun x => (deltas ts).countP fun d => decide (x ≤ d)
    (n ≤ 2 * le (measure ts).p50 ∧ n ≤ 2 * ge (measure ts).p50) ∧
    (99 * n ≤ 100 * le (measure ts).p99 ∧ n ≤ 100 * ge (measure ts).p99) ∧
    (999 * n ≤ 1000 * le (measure ts).p999 ∧ n ≤ 1000 * ge (measure ts).p999) := by
  have hl := deltas_length ts
  rw [measure_long ts h]
  dsimp only
  obtain ⟨h0, h1, h2, h3⟩ := places_inside ts h
  obtain ⟨_, a2, a3⟩ := order_stat (deltas ts) _ h1
  obtain ⟨_, b2, b3⟩ := order_stat (deltas ts) _ h2
  obtain ⟨_, c2, c3⟩ := order_stat (deltas ts) _ h3
  have e1 : Nat.min ((deltas ts).length * 999 / 1000) ((deltas ts).length - 1) = (deltas ts).length * 999 / 1000 := Nat.min_eq_left (by omega)
  rw [e1] at c2 c3 ⊢
  refine ⟨⟨by omega, by omega⟩, ⟨by omega, by omega⟩, by omega, by omega⟩

/-- C208. Samples and mean: one interval between any two following ticks, and together they are the
time from the first tick to the last. -/
theorem mean_exact (ts : List Nat) (h : 2 ≤ ts.length) (hs : ts.Pairwise (· ≤ ·)) (a b : Nat) (ha : ts.head? = some a) (hb : ts.getLast? = some b) :
    (measure ts).samples = ts.length - 1 ∧ (measure ts).total = b - a := by
  rw [measure_long ts h]
  exact ⟨deltas_length ts, (deltas_total ts hs a b ha hb).1⟩

/-- C208, the readiness verdict (partial): a machine graded for production has every capability the
grade names but isolated CPUs, and if anything was measured, 99 of 100 intervals were below 50 µs. What
is missing: isolated CPUs are not looked at, and the interval is not the jitter (see below). -/
theorem production_partial (c : Caps) (ts : List Nat) (h : grade c (measure ts) = .production) :
    c.preemptRt = true ∧ c.memoryLocking = true ∧ 0 < c.maxPriority ∧
    99 * (deltas ts).length ≤ 100 * (deltas ts).countP (fun d => decide (d < 50000)) := by
  unfold grade at h
  by_cases hc : c.preemptRt = true ∧ c.memoryLocking = true ∧ 0 < c.maxPriority ∧ (measure ts).p99 < 50000
  · refine ⟨hc.1, hc.2.1, hc.2.2.1, ?_⟩
    by_cases hl : 2 ≤ ts.length
    · have := (percentiles_exact ts hl).2.1.1
      dsimp only at this
      refine Nat.le_trans this ?_
      have : (deltas ts).countP (fun d => decide (d ≤ (measure ts).p99)) ≤ (deltas ts).countP (fun d => decide (d < 50000)) :=
        List.countP_mono_left (fun d _ hd => by simp at hd ⊢; omega)
      omega
    · have := deltas_length ts; omega
  · rw [if_neg hc] at h
    split at h <;> cases h

/-- Disagreement. A machine that keeps the rate is graded for development only: the report compares the
length of the intervals, which is about a millisecond, with the limits meant for their deviation. -/
theorem steady_development (c : Caps) (ts : List Nat) (h : 2 ≤ ts.length) (hs : Steady ts) :
    grade c (measure ts) = .development := by
  have hm : (measure ts).p99 ∈ deltas ts := by
    rw [measure_long ts h]
    exact (order_stat _ _ (places_inside ts h).2.2.1).1
  have := hs _ hm
  unfold off at this
  have hp : 500000 ≤ (measure ts).p99 := by omega
  unfold grade
  rw [if_neg (by omega), if_neg (by omega)]

/-- Disagreement. A perfect clock on a machine with every capability is graded for development and
told that its jitter of zero exceeds half a millisecond. -/
theorem perfect_development (n : Nat) (start : Nat) :
    let ts := (List.range (n + 2)).map fun i => start + i * 1000000
    (∀ d ∈ deltas ts, off d = 0) ∧ grade ⟨true, true, 99, 4⟩ (measure ts) = .development ∧ issues ⟨true, true, 99, 4⟩ (measure ts) = [.over500, .over50] := by
  have hd : ∀ (m s : Nat), ∀ d ∈ deltas ((List.range m).map fun i => s + i * 1000000), d = 1000000 := by
    intro m
    induction m with
    | zero => intro s d hd; simp [deltas] at hd
    | succ m ih =>
      intro s d hd
      cases m with
      | zero => simp [List.range_succ, deltas] at hd
      | succ m =>
        have e : (List.range (m + 1 + 1)).map (fun i => s + i * 1000000) = (s + 0 * 1000000) :: ((List.range (m + 1)).map fun i => (s + 1000000) + i * 1000000) := by
          rw [List.range_succ_eq_map, List.map_cons, List.map_map]
          congr 1
          apply List.map_congr_left
          intro i _
          simp only [Function.comp]; omega
        have e2 : (List.range (m + 1)).map (fun i => (s + 1000000) + i * 1000000) = (s + 1000000 + 0 * 1000000) :: (List.map Nat.succ (List.range m)).map fun i => (s + 1000000) + i * 1000000 := by
          rw [List.range_succ_eq_map, List.map_cons]
        rw [e] at hd
        rw [e2, deltas, ← e2, List.mem_cons] at hd
        rcases hd with rfl | hd
        · omega
        · exact ih _ d hd
  intro ts
  have hts := hd (n + 2) start
  have hlen : 2 ≤ ts.length := by simp [ts]
  have hm : (measure ts).p99 ∈ deltas ts := by
    rw [measure_long ts hlen]
    exact (order_stat _ _ (places_inside ts hlen).2.2.1).1
  have hp : (measure ts).p99 = 1000000 := hts _ hm
  refine ⟨fun d h => by rw [hts d h]; rfl, ?_, ?_⟩
  · simp [grade, hp]
  · simp [issues, hp]

/-- Disagreement. A benchmark too short to measure anything is graded for production. -/
theorem unmeasured_production (ts : List Nat) (h : ts.length < 2) :
    grade ⟨true, true, 1, 0⟩ (measure ts) = .production ∧ issues ⟨true, true, 1, 0⟩ (measure ts) = [] := by
  have : measure ts = ⟨0, 0, 0, 0, 0, 0, 0⟩ := by unfold measure; rw [if_pos h]
  rw [this]; decide

/-- C208. A machine graded for production has no issue listed; a machine with no issue has every
capability and its figure is at most 50 µs. -/
theorem issues_grade (c : Caps) (j : Jitter) :
    (grade c j = .production → issues c j = []) ∧
    (issues c j = [] → c.preemptRt = true ∧ c.memoryLocking = true ∧ 0 < c.maxPriority ∧ j.p99 ≤ 50000) := by
  constructor
  · intro h
    unfold grade at h
    by_cases hc : c.preemptRt = true ∧ c.memoryLocking = true ∧ 0 < c.maxPriority ∧ j.p99 < 50000
    · obtain ⟨a, b, d, e⟩ := hc
      simp [issues, a, b]; omega
    · rw [if_neg hc] at h; split at h <;> cases h
  · intro h
    unfold issues at h
    simp only [List.append_eq_nil_iff] at h
    obtain ⟨⟨⟨⟨h1, h2⟩, h3⟩, h4⟩, h5⟩ := h
    have a1 : c.preemptRt = true := by by_contra hx; rw [if_neg hx] at h1; cases h1
    have a2 : c.memoryLocking = true := by by_contra hx; rw [if_neg hx] at h3; cases h3
    have a3 : c.maxPriority ≠ 0 := by intro hx; rw [if_pos hx] at h2; cases h2
    have a5 : ¬ (50000 < j.p99 ∧ c.preemptRt = true) := by intro hx; rw [if_pos hx] at h5; cases h5
    exact ⟨a1, a2, by omega, by by_contra hx; exact a5 ⟨by omega, a1⟩⟩

/-- Disagreement. At exactly 50 µs the report says that the system is ready, and grades it one below. -/
theorem ready_but_standard : ∃ j, issues ⟨true, true, 1, 0⟩ j = [] ∧ grade ⟨true, true, 1, 0⟩ j = .standard :=
  ⟨⟨1, 50000, 50000, 50000, 50000, 50000, 50000⟩, by decide, by decide⟩

/-- Disagreement. A machine that stalled for a tenth of a second and then fired a hundred ticks in a
microsecond is graded for production. -/
theorem stalled_production :
    let ts := 0 :: (List.range 101).map fun i => 100000000 + i * 10
    (∃ d ∈ deltas ts, d = 100000000) ∧ grade ⟨true, true, 1, 0⟩ (measure ts) = .production := by
  decide +kernel

/-- Non-vacuity: a steady run and its figures. -/
example : Steady [0, 1000000, 2100000, 2900000] := by unfold Steady; decide
example : measure [0, 1000000, 2100000, 2900000] = ⟨3, 2900000, 800000, 1000000, 1100000, 1100000, 1100000⟩ := by decide

end Horus.RtReport
