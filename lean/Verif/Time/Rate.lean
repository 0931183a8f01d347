import Mathlib.Algebra.Order.Ring.Rat
import Mathlib.Tactic.Common
import Mathlib.Tactic.Linarith
import Mathlib.Tactic.Ring
/-
`Rate`, the rate limiter for background threads. Source: /repo/horus_core/src/core/timer.rs:55-143.
Times are nanoseconds of the monotonic clock.
-/
namespace Horus.Rate

/-- timer.rs:55-60; `smoothed` is in nanoseconds (the code uses f64 seconds). -/
structure Rate where
  period : Nat
  last : Nat
  smoothed : Option ℚ

/-- What the world adds to one cycle: the time worked before `sleep` is called, how much longer than asked the thread
sleeps, and the time between the clock readings after that. -/
structure Cycle where
  work : Nat
  over : Nat
  d1 : Nat
  d2 : Nat

/-- timer.rs:68-75 `new`. -/
def new (period now : Nat) : Rate := { period := period, last := now, smoothed := none }

/-- timer.rs:81-103 `sleep`, called at time `t`: the new state and the time it returns. -/
def sleep (r : Rate) (t : Nat) (c : Cycle) : Rate × Nat :=
  let elapsed := t - r.last
  let sm : Option ℚ := some (match r.smoothed with
    | none => (elapsed : ℚ)
    | some p => 9 / 10 * p + 1 / 10 * (elapsed : ℚ))
  let t1 := (if elapsed ≤ r.period then t + (r.period - elapsed) + c.over else t) + c.d1
  let last := r.last + r.period
  if t1 - last > r.period then ({ r with last := t1 + c.d2, smoothed := sm }, t1 + c.d2)
  else ({ r with last := last, smoothed := sm }, t1)

/-- One turn of the loop, from the time the last `sleep` returned. -/
def turn (s : Rate × Nat) (c : Cycle) : Rate × Nat := sleep s.1 (s.2 + c.work) c

def run (s : Rate × Nat) (cs : List Cycle) : Rate × Nat := cs.foldl turn s

/-- timer.rs:140 `is_late`. -/
def isLate (r : Rate) (now : Nat) : Bool := decide (now - r.last ≥ r.period)

theorem turn_period (s : Rate × Nat) (c : Cycle) : (turn s c).1.period = s.1.period := by
  unfold turn sleep
  dsimp only
  split_ifs <;> rfl

/-- Each turn moves the start of the cycle by at least a period, ends after it, and not a period after it unless the
limiter fell behind before. -/
theorem turn_spec (s : Rate × Nat) (c : Cycle) (h : s.1.last ≤ s.2) :
    s.1.last + s.1.period ≤ (turn s c).1.last ∧ (turn s c).1.last ≤ (turn s c).2 ∧ (turn s c).2 ≤ (turn s c).1.last + s.1.period := by
  unfold turn sleep
  dsimp only
  by_cases h1 : s.2 + c.work - s.1.last ≤ s.1.period
  · rw [if_pos h1]
    split_ifs with h2 <;> dsimp only <;> omega
  · rw [if_neg h1]
    split_ifs with h2 <;> dsimp only <;> omega

/-- **Never faster than the rate.** However long each turn works and oversleeps, the n-th `sleep` returns no earlier than n
periods after the limiter was made. -/
theorem not_too_fast (period now : Nat) (cs : List Cycle) : now + cs.length * period ≤ (run (new period now, now) cs).2 := by
  have key : ∀ (cs : List Cycle) (s : Rate × Nat), s.1.last ≤ s.2 → s.1.last + cs.length * s.1.period ≤ (run s cs).1.last ∧ (run s cs).1.last ≤ (run s cs).2 := by
    intro cs
    induction cs with
    | nil => intro s h; simp only [run, List.foldl_nil, List.length_nil, Nat.zero_mul]; exact ⟨Nat.le_refl _, h⟩
    | cons c cs ih =>
      intro s h
      obtain ⟨h1, h2, _⟩ := turn_spec s c h
      have := ih (turn s c) h2
      rw [turn_period] at this
      refine ⟨?_, this.2⟩
      have h3 := this.1
      simp only [run, List.foldl_cons, List.length_cons, Nat.succ_mul] at *
      omega
  have := key cs (new period now, now) (Nat.le_refl _)
  have h1 : (new period now, now).1.last = now := rfl
  have h2 : (new period now, now).1.period = period := rfl
  rw [h1, h2] at this
  omega

/-- **At most one period is caught up.** Within any k turns after the first one, at least k - 1 periods pass: a stall, however
long, is followed by at most one turn without waiting. -/
theorem at_most_one_caught_up (period now : Nat) (c : Cycle) (before cs : List Cycle) :
    let s := run (new period now, now) (before ++ [c])
    s.2 + cs.length * period ≤ (run s cs).2 + period := by
  intro s
  have hinv : ∀ (cs : List Cycle) (s : Rate × Nat), s.1.last ≤ s.2 → (run s cs).1.last ≤ (run s cs).2 ∧ (run s cs).1.period = s.1.period ∧
      s.1.last + cs.length * s.1.period ≤ (run s cs).1.last := by
    intro cs
    induction cs with
    | nil => intro s h; simp only [run, List.foldl_nil, List.length_nil, Nat.zero_mul]; exact ⟨h, trivial, Nat.le_refl _⟩
    | cons c cs ih =>
      intro s h
      obtain ⟨h1, h2, _⟩ := turn_spec s c h
      obtain ⟨a, b, d⟩ := ih (turn s c) h2
      rw [turn_period] at b d
      refine ⟨a, b, ?_⟩
      simp only [run, List.foldl_cons, List.length_cons, Nat.succ_mul] at *
      omega
  obtain ⟨b1, b2, _⟩ := hinv before (new period now, now) (Nat.le_refl _)
  have hs : s = turn (run (new period now, now) before) c := by simp only [s, run, List.foldl_append, List.foldl_cons, List.foldl_nil]
  obtain ⟨_, t2, t3⟩ := turn_spec (run (new period now, now) before) c b1
  rw [b2] at t3
  rw [← hs] at t2 t3
  obtain ⟨c1, _, c3⟩ := hinv cs s t2
  have hp : s.1.period = period := by rw [hs, turn_period, b2]; rfl
  have hp' : (new period now, now).1.period = period := rfl
  rw [hp] at c3
  rw [hp'] at t3
  omega

/-- **No drift.** If the work of every turn and the lateness of waking fit in a period together, the n-th `sleep` returns
within the lateness after n periods, for every n. -/
theorem no_drift (period now W L : Nat) (hWL : W + L ≤ period) (cs : List Cycle) (h : ∀ c ∈ cs, c.work ≤ W ∧ c.over + c.d1 ≤ L) :
    now + cs.length * period ≤ (run (new period now, now) cs).2 ∧ (run (new period now, now) cs).2 ≤ now + cs.length * period + L := by
  refine ⟨not_too_fast period now cs, ?_⟩
  have key : ∀ (cs : List Cycle) (s : Rate × Nat), s.1.period = period → s.1.last ≤ s.2 → s.2 ≤ s.1.last + L → (∀ c ∈ cs, c.work ≤ W ∧ c.over + c.d1 ≤ L) →
      (run s cs).2 ≤ s.1.last + cs.length * period + L := by
    intro cs
    induction cs with
    | nil => intro s _ _ h2 _; simp only [run, List.foldl_nil, List.length_nil, Nat.zero_mul]; omega
    | cons c cs ih =>
      intro s hp h1 h2 hc
      obtain ⟨hw, hl⟩ := hc c List.mem_cons_self
      have ht : (turn s c).1.last = s.1.last + period ∧ (turn s c).2 = s.1.last + period + c.over + c.d1 := by
        unfold turn sleep
        dsimp only
        rw [if_pos (show s.2 + c.work - s.1.last ≤ s.1.period by omega), if_neg (by omega)]
        dsimp only
        omega
      have := ih (turn s c) (by rw [turn_period, hp]) (by omega) (by omega) fun x hx => hc x (List.mem_cons_of_mem _ hx)
      simp only [run, List.foldl_cons, List.length_cons, Nat.succ_mul] at *
      omega
  exact key cs (new period now, now) rfl (Nat.le_refl _) (Nat.le_add_right _ _) h

/-- **`is_late` says whether `sleep` would wait**: late, and it returns at once; not late, and it returns at the end of the period. -/
theorem late_iff (r : Rate) (t : Nat) (h : r.last ≤ t) :
    (isLate r t = true → (sleep r t ⟨0, 0, 0, 0⟩).2 = t) ∧ (isLate r t = false → t < (sleep r t ⟨0, 0, 0, 0⟩).2 ∧ (sleep r t ⟨0, 0, 0, 0⟩).2 = r.last + r.period) := by
  unfold isLate sleep
  simp only [decide_eq_true_eq, decide_eq_false_iff_not, ge_iff_le, Nat.not_le, Nat.add_zero]
  constructor
  · intro hl
    split_ifs <;> dsimp only <;> omega
  · intro hl
    have h1 : t - r.last ≤ r.period := by omega
    have h2 : ¬ t + (r.period - (t - r.last)) - (r.last + r.period) > r.period := by omega
    simp only [h1, h2, if_true, if_false]
    omega

/-- A turn that works `w` and wakes exactly on time. -/
def exact (w : Nat) : Cycle := ⟨w, 0, 0, 0⟩

/-- **The measured rate is not the rate.** A loop that works w nanoseconds in each period and wakes exactly on time runs
at one turn per period, but `actual_hz` is 1/w: the smoothed period is the time worked, without the time slept. -/
theorem actual_is_work (period now w : Nat) (hw : w ≤ period) (n : Nat) :
    (run (new period now, now) (List.replicate (n + 1) (exact w))).1.smoothed = some (w : ℚ) ∧
    (run (new period now, now) (List.replicate (n + 1) (exact w))).2 = now + (n + 1) * period := by
  have step : ∀ (r : Rate), r.period = period → (r.smoothed = none ∨ r.smoothed = some (w : ℚ)) →
      (turn (r, r.last) (exact w)).1.smoothed = some (w : ℚ) ∧ (turn (r, r.last) (exact w)).1.last = r.last + period ∧ (turn (r, r.last) (exact w)).2 = r.last + period := by
    intro r hp hs
    have he : r.last + w - r.last = w := by omega
    unfold turn sleep exact
    dsimp only
    rw [he, if_pos (show w ≤ r.period by omega), if_neg (by omega)]
    refine ⟨?_, by dsimp only; rw [hp], by dsimp only; omega⟩
    dsimp only
    rcases hs with h | h
    · rw [h]
    · rw [h]
      dsimp only
      congr 1
      ring
  have key : ∀ n (r : Rate), r.period = period → (r.smoothed = none ∨ r.smoothed = some (w : ℚ)) →
      (run (r, r.last) (List.replicate (n + 1) (exact w))).1.smoothed = some (w : ℚ) ∧ (run (r, r.last) (List.replicate (n + 1) (exact w))).2 = r.last + (n + 1) * period := by
    intro n
    induction n with
    | zero =>
      intro r hp hs
      obtain ⟨a, _, c⟩ := step r hp hs
      refine ⟨a, ?_⟩
      show (turn (r, r.last) (exact w)).2 = _
      rw [c]
      omega
    | succ n ih =>
      intro r hp hs
      obtain ⟨a, b, c⟩ := step r hp hs
      have hpair : turn (r, r.last) (exact w) = ((turn (r, r.last) (exact w)).1, (turn (r, r.last) (exact w)).1.last) := Prod.ext rfl (by dsimp only; omega)
      have hrun : run (r, r.last) (List.replicate (n + 1 + 1) (exact w)) = run ((turn (r, r.last) (exact w)).1, (turn (r, r.last) (exact w)).1.last) (List.replicate (n + 1) (exact w)) := by
        rw [List.replicate_succ, run, List.foldl_cons, ← hpair]
        rfl
      obtain ⟨x, y⟩ := ih (turn (r, r.last) (exact w)).1 (by rw [turn_period]; exact hp) (.inr a)
      rw [hrun]
      refine ⟨x, ?_⟩
      rw [y, b, Nat.succ_mul (n + 1) period]
      omega
  exact key n (new period now) rfl (.inl rfl)

/-- A 100 Hz loop that works 1 ms: `actual_hz` says 1000 Hz. -/
example : (run (new 10000000 5, 5) (List.replicate 50 (exact 1000000))).1.smoothed = some 1000000 := by
  have := (actual_is_work 10000000 5 1000000 (by omega) 49).1
  norm_num at this ⊢
  exact this

/-- A stall of ten periods, then the rate again. -/
example : (run (new 10 0, 0) [⟨105, 0, 0, 0⟩, ⟨1, 0, 0, 0⟩, ⟨1, 0, 0, 0⟩]).2 = 125 := by decide +kernel

end Horus.Rate
