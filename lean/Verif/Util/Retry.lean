import Mathlib.Algebra.Order.Ring.Rat
import Mathlib.Tactic.Common
import Mathlib.Tactic.Linarith
/-
Retrying and throttled logging. Source: /repo/horus_core/src/error.rs:1209-1231 (severity) and 1345-1371
(retry_transient); /repo/horus_core/src/core/hlog.rs:353-404 (hlog_every!, hlog_once!).
Durations are rational numbers (the code computes them in f64 and rounds to nanoseconds).
-/
namespace Horus.Retry

/-- error.rs: Severity. -/
inductive Severity
  | transient
  | permanent
  | fatal
deriving DecidableEq

/-- What one call of the operation gives. -/
inductive Outcome (α ε : Type)
  | ok (v : α)
  | err (e : ε) (s : Severity)

/-- error.rs:1248-1261 RetryConfig; `factor` is positive (1284-1291). -/
structure Config where
  retries : Nat
  initial : ℚ
  max : ℚ
  factor : ℚ

/-- error.rs:1361-1364. -/
def next (c : Config) (b : ℚ) : ℚ := min (b * c.factor) c.max

/-- error.rs:1351-1367: the loop from attempt `k`, with `left` retries left. `f k` is the outcome of the k-th call (the
operation may have any state). Gives the result, the number of calls, the times slept. -/
def loop {α ε : Type} (c : Config) (f : Nat → Outcome α ε) : Nat → Nat → ℚ → Outcome α ε × Nat × List ℚ
  | k, left, b =>
    match f k with
    | .ok v => (.ok v, k + 1, [])
    | .err e s =>
      match left with
      | 0 => (.err e s, k + 1, [])
      | left + 1 =>
        if s = .transient then
          let out := loop c f (k + 1) left (next c b)
          (out.1, out.2.1, b :: out.2.2)
        else (.err e s, k + 1, [])

/-- error.rs:1345 `retry_transient`. -/
def retry {α ε : Type} (c : Config) (f : Nat → Outcome α ε) : Outcome α ε × Nat × List ℚ := loop c f 0 c.retries c.initial

/-! ### Specification -/

def Transient {α ε : Type} : Outcome α ε → Prop
  | .err _ .transient => True
  | _ => False

/-- The time slept before retry `j + 1`. -/
def wait (c : Config) (j : Nat) : ℚ := (next c)^[j] c.initial

theorem loop_spec {α ε : Type} (c : Config) (f : Nat → Outcome α ε) : ∀ (left k : Nat) (b : ℚ),
    let out := loop c f k left b
    k < out.2.1 ∧ out.2.1 ≤ k + left + 1 ∧ out.1 = f (out.2.1 - 1) ∧ (∀ j, k ≤ j → j + 1 < out.2.1 → Transient (f j)) ∧
    (Transient out.1 → out.2.1 = k + left + 1) ∧ out.2.2 = (List.range (out.2.1 - 1 - k)).map fun j => (next c)^[j] b := by
  intro left
  induction left with
  | zero =>
    intro k b
    unfold loop
    cases hf : f k with
    | ok v =>
      dsimp only
      refine ⟨by omega, by omega, by simp [hf], by intro j h1 h2; omega, fun _ => rfl, by simp⟩
    | err e s =>
      dsimp only
      refine ⟨by omega, by omega, by simp [hf], by intro j h1 h2; omega, fun _ => rfl, by simp⟩
  | succ left ih =>
    intro k b
    unfold loop
    cases hf : f k with
    | ok v =>
      dsimp only
      refine ⟨by omega, by omega, by simp [hf], by intro j h1 h2; omega, fun h => h.elim, by simp⟩
    | err e s =>
      dsimp only
      by_cases hs : s = .transient
      · rw [if_pos hs]
        obtain ⟨h1, h2, h3, h4, h5, h6⟩ := ih (k + 1) (next c b)
        dsimp only
        refine ⟨by omega, by omega, h3, ?_, fun h => by rw [h5 h]; omega, ?_⟩
        · intro j hj1 hj2
          by_cases hjk : j = k
          · rw [hjk, hf, hs]; trivial
          · exact h4 j (by omega) hj2
        · rw [h6]
          obtain ⟨m, hm⟩ : ∃ m, (loop c f (k + 1) left (next c b)).2.1 - 1 - k = m + 1 := ⟨(loop c f (k + 1) left (next c b)).2.1 - 1 - k - 1, by omega⟩
          have hm' : (loop c f (k + 1) left (next c b)).2.1 - 1 - (k + 1) = m := by omega
          rw [hm, hm', List.range_succ_eq_map, List.map_cons, List.map_map]
          rfl
      · rw [if_neg hs]
        dsimp only
        refine ⟨by omega, by omega, by simp [hf], by intro j h1 h2; omega, ?_, by simp⟩
        intro h
        cases s with
        | transient => exact absurd rfl hs
        | permanent => exact h.elim
        | fatal => exact h.elim

/-- **Retrying.** The operation is called at least once and at most once more than the retries allow; the result is that of
the last call; every call before it failed with a transient error; a transient error is returned only when all
retries are used; and before retry `j + 1` the time of the back-off is slept. -/
theorem retry_spec {α ε : Type} (c : Config) (f : Nat → Outcome α ε) :
    ∃ n, 1 ≤ n ∧ n ≤ c.retries + 1 ∧ (retry c f).1 = f (n - 1) ∧ (retry c f).2.1 = n ∧ (∀ j, j + 1 < n → Transient (f j)) ∧
      (Transient (retry c f).1 → n = c.retries + 1) ∧ (retry c f).2.2 = (List.range (n - 1)).map (wait c) := by
  obtain ⟨h1, h2, h3, h4, h5, h6⟩ := loop_spec c f c.retries 0 c.initial
  refine ⟨(retry c f).2.1, by unfold retry; omega, by unfold retry; omega, h3, rfl, fun j hj => h4 j (by omega) hj, fun h => ?_, ?_⟩
  · have := h5 h
    unfold retry
    omega
  · unfold retry
    rw [h6]
    rfl

/-- **An operation that recovers in time succeeds**: if the first success is at call `n` with only transient errors before
and `n` is within the retries, its value is returned. -/
theorem retry_succeeds {α ε : Type} (c : Config) (f : Nat → Outcome α ε) (n : Nat) (v : α) (hn : n ≤ c.retries) (hv : f n = .ok v)
    (ht : ∀ j < n, Transient (f j)) : (retry c f).1 = .ok v := by
  obtain ⟨m, h1, h2, h3, h4, h5, h6, _⟩ := retry_spec c f
  have hm : m = n + 1 := by
    rcases Nat.lt_trichotomy m (n + 1) with h | h | h
    · exfalso
      have hT := ht (m - 1) (by omega)
      rw [← h3] at hT
      have := h6 hT
      omega
    · exact h
    · exfalso
      have := h5 n (by omega)
      rw [hv] at this
      exact this.elim
  rw [h3, hm]
  exact hv

/-- **From the second wait on, the back-off grows geometrically and never exceeds the maximum.** -/
theorem wait_bounded_partial (c : Config) (j : Nat) : wait c (j + 1) ≤ c.max ∧ wait c (j + 1) ≤ wait c j * c.factor := by
  unfold wait
  rw [Function.iterate_succ_apply']
  exact ⟨min_le_right _ _, min_le_left _ _⟩

/-- With the first wait within the maximum and a factor of at least one, the j-th wait is the initial one times the
factor j times, cut at the maximum. -/
theorem wait_exact (c : Config) (hm : c.initial ≤ c.max) (h0 : 0 ≤ c.initial) (hf : 1 ≤ c.factor) (j : Nat) :
    wait c j = min (c.initial * c.factor ^ j) c.max := by
  induction j with
  | zero => simp [wait, hm]
  | succ j ih =>
    have h : wait c (j + 1) = next c (wait c j) := by unfold wait; rw [Function.iterate_succ_apply']
    rw [h, ih]
    unfold next
    rw [pow_succ, ← mul_assoc]
    have hmax : 0 ≤ c.max := le_trans h0 hm
    rcases le_total (c.initial * c.factor ^ j) c.max with h1 | h1
    · rw [min_eq_left h1]
    · rw [min_eq_right h1, min_eq_right (le_mul_of_one_le_right hmax hf), min_eq_right]
      exact le_trans (le_mul_of_one_le_right hmax hf) (mul_le_mul_of_nonneg_right h1 (by linarith))

/-- **The maximum does not bind the first wait**: a configuration with an initial back-off of five seconds and a maximum of
one second sleeps five seconds first. -/
theorem first_wait_uncapped : wait ⟨3, 5, 1, 2⟩ 0 = 5 ∧ (wait ⟨3, 5, 1, 2⟩ 0 > 1) ∧ wait ⟨3, 5, 1, 2⟩ 1 = 1 := by
  refine ⟨rfl, by norm_num [wait], by norm_num [wait, next]⟩

/-- The default configuration: 10, 20, 40 ms. -/
example : (List.range 3).map (wait ⟨3, 10, 1000, 2⟩) = [10, 20, 40] := by norm_num [List.range_succ, wait, next]

def flaky (k : Nat) : Outcome Nat Nat := if k < 2 then .err k .transient else .ok 7

example : (retry ⟨3, 10, 1000, 2⟩ flaky).2.1 = 3 ∧ (∀ j < 2, Transient (flaky j)) := by
  refine ⟨by simp [retry, loop, flaky], ?_⟩
  intro j hj
  unfold flaky
  rw [if_pos hj]
  trivial

end Horus.Retry

/-! ## Throttled logging -/
namespace Horus.Throttle

/-- A call site of `hlog_every!`: the time it last printed (0 at first). -/
structure Site where
  last : Nat
  printed : List Nat

/-- hlog.rs:355-366: one evaluation at wall-clock time `now` (milliseconds since 1970). -/
def every (iv : Nat) (s : Site) (now : Nat) : Site :=
  if now - s.last ≥ iv then { last := now, printed := s.printed ++ [now] } else s

def runs (iv : Nat) (ts : List Nat) : Site := ts.foldl (every iv) ⟨0, []⟩

/-- Every two neighbours are at least `iv` apart. -/
def Spaced (iv : Nat) : List Nat → Prop
  | a :: b :: l => a + iv ≤ b ∧ Spaced iv (b :: l)
  | _ => True

theorem spaced_snoc {iv : Nat} : ∀ (l : List Nat) (x y : Nat), Spaced iv (l ++ [x]) → x + iv ≤ y → Spaced iv (l ++ [x, y]) := by
  intro l
  induction l with
  | nil => intro x y _ h; exact ⟨h, trivial⟩
  | cons a l ih =>
    intro x y h hy
    cases l with
    | nil => exact ⟨h.1, hy, trivial⟩
    | cons b l => exact ⟨h.1, ih x y h.2 hy⟩

/-- **At most one line per interval.** Whatever the clock does (it may be set back), the printed times of a call site
used by one thread are at least the interval apart. -/
theorem at_most_once_per_interval (iv : Nat) (ts : List Nat) (hiv : 0 < iv) : Spaced iv (runs iv ts).printed := by
  have : ∀ (ts : List Nat) (s : Site), ((s.last = 0 ∧ s.printed = []) ∨ ∃ l, s.printed = l ++ [s.last]) → Spaced iv s.printed →
      Spaced iv (ts.foldl (every iv) s).printed := by
    intro ts
    induction ts with
    | nil => intro s _ h; exact h
    | cons t ts ih =>
      intro s h1 h2
      rw [List.foldl_cons]
      unfold every
      by_cases hc : t - s.last ≥ iv
      · rw [if_pos hc]
        refine ih _ (.inr ⟨s.printed, rfl⟩) ?_
        dsimp only
        rcases h1 with ⟨_, h⟩ | ⟨l, h⟩
        · rw [h]; trivial
        · rw [h, List.append_assoc]
          exact spaced_snoc l s.last t (h ▸ h2) (by omega)
      · rw [if_neg hc]
        exact ih s h1 h2
  exact this ts ⟨0, []⟩ (.inl ⟨rfl, rfl⟩) trivial

/-- **A line is printed whenever the interval has passed** since the last one. -/
theorem printed_when_due (iv : Nat) (s : Site) (now : Nat) (h : s.last + iv ≤ now) : (every iv s now).printed = s.printed ++ [now] := by
  unfold every
  rw [if_pos (by omega)]

/-- **A clock set back silences the log.** While the clock reads less than the last printed time plus the interval nothing
is printed, however long that takes: after a correction by a day, for a day. -/
theorem set_back_silences (iv : Nat) (s : Site) (hiv : 0 < iv) (ts : List Nat) (h : ∀ t ∈ ts, t < s.last + iv) : ts.foldl (every iv) s = s := by
  induction ts with
  | nil => rfl
  | cons t ts ih =>
    rw [List.foldl_cons]
    have ht := h t List.mem_cons_self
    have : every iv s t = s := by unfold every; rw [if_neg (by omega)]
    rw [this]
    exact ih fun x hx => h x (List.mem_cons_of_mem _ hx)

/-! ### Threads -/

/-- Several threads at one call site of `hlog_every!`: reading the clock and the last time is one step, storing and
printing another (hlog.rs:361-365: a relaxed load, then a relaxed store). -/
inductive Act
  | load (thread now : Nat)
  | finish (thread : Nat)

structure Shared where
  last : Nat
  printed : List Nat
  pending : Nat → Option Nat

def step (iv : Nat) (s : Shared) : Act → Shared
  | .load t now => { s with pending := fun u => if u = t then (if now - s.last ≥ iv then some now else none) else s.pending u }
  | .finish t => match s.pending t with
    | some now => { last := now, printed := s.printed ++ [now], pending := fun u => if u = t then none else s.pending u }
    | none => s

def runShared (iv : Nat) (as : List Act) : Shared := as.foldl (step iv) ⟨0, [], fun _ => none⟩

/-- **Two threads print twice in one interval**: both see that the interval has passed before either says that it printed. -/
theorem threads_print_twice (iv : Nat) (now : Nat) (h : iv ≤ now) :
    (runShared iv [.load 0 now, .load 1 now, .finish 0, .finish 1]).printed = [now, now] := by
  simp [runShared, step, h]

/-- A call site of `hlog_once!` (hlog.rs:391-400): the flag is swapped in one step, so the interleaving of threads does not
matter; each element is the thread that evaluates it. Gives the threads that printed. -/
def once (calls : List Nat) : List Nat :=
  (calls.foldl (fun (s : Bool × List Nat) t => if s.1 then s else (true, s.2 ++ [t])) (false, [])).2

/-- **Exactly once**: of any number of evaluations by any threads the first prints and no other. -/
theorem once_exactly (calls : List Nat) : once calls = calls.take 1 := by
  have h : ∀ (calls : List Nat) (l : List Nat), (calls.foldl (fun (s : Bool × List Nat) t => if s.1 then s else (true, s.2 ++ [t])) (true, l)).2 = l := by
    intro calls
    induction calls with
    | nil => intro l; rfl
    | cons c cs ih => intro l; exact ih l
  cases calls with
  | nil => rfl
  | cons c cs =>
    unfold once
    rw [List.foldl_cons]
    simp only [Bool.false_eq_true, if_false, List.nil_append, h]
    rfl

example : (runs 1000 [5000, 5400, 6100, 6200, 7100]).printed = [5000, 6100, 7100] := by decide

example : once [3, 1, 2] = [3] := by decide

end Horus.Throttle
