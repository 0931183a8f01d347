import Mathlib.Data.List.Basic
import Mathlib.Tactic.Common
/-
A driver that is an external program. Source: /repo/horus_core/src/drivers/exec_driver.rs:58-280.
Processes are numbers in the order they are started; which of them are running is `alive`.
-/
namespace Horus.ExecDriver

/-- exec_driver.rs:16-29; times are milliseconds. -/
structure Config where
  retries : Nat
  delay : Nat

/-- exec_driver.rs:50-56, with the world. `slept` holds the waits before restarts. -/
structure St where
  child : Option Nat
  restarts : Nat
  started : Bool
  alive : List Nat
  next : Nat
  slept : List Nat

def St.new : St := { child := none, restarts := 0, started := false, alive := [], next := 0, slept := [] }

/-- exec_driver.rs:160-178 `launch`; `ok` is whether the program could be started. -/
def launch (s : St) (ok : Bool) : St :=
  if ok then { s with child := some s.next, started := true, alive := s.next :: s.alive, next := s.next + 1 } else s

/-- exec_driver.rs:181-198 `check_health`; `err` is whether `try_wait` fails. -/
def checkHealth (s : St) (err : Bool) : Bool × St :=
  match s.child with
  | none => (false, s)
  | some p => if err then (false, s) else if p ∈ s.alive then (true, s) else (false, { s with child := none })

/-- exec_driver.rs:221-222: the wait before restart `n`, as numbers without limit (`overflow` below says when the 64-bit
computation is another one). -/
def waitFor (c : Config) (n : Nat) : Nat := min (c.delay * 2 ^ (n - 1)) 30000

/-- Whether the computation at 221 overflows 64 bits: a panic with overflow checks, another wait without. -/
def overflows (c : Config) (n : Nat) : Bool := decide (2 ^ (n - 1) ≥ 2 ^ 64 ∨ c.delay * 2 ^ (n - 1) ≥ 2 ^ 64)

/-- exec_driver.rs:215-235 `tick`. -/
def tick (c : Config) (s : St) (err ok : Bool) : St :=
  if s.started = false then s
  else
    let (healthy, s1) := checkHealth s err
    if healthy = false ∧ s1.restarts < c.retries then
      launch { s1 with restarts := s1.restarts + 1, slept := s1.slept ++ [waitFor c (s1.restarts + 1)] } ok
    else s1

/-- What happens: `init`, ticks, and processes that end (with any status) whenever they like. -/
inductive Act
  | init (ok : Bool)
  | tick (err ok : Bool)
  | ends (p : Nat) (status : Nat)
deriving DecidableEq

def step (c : Config) (s : St) : Act → St
  | .init ok => launch s ok
  | .tick err ok => tick c s err ok
  | .ends p _ => { s with alive := s.alive.filter (· ≠ p) }

/-- A node is initialised once, then ticked (see Loop/Life). -/
def run (c : Config) (ok : Bool) (as : List Act) : St := as.foldl (step c) (launch St.new ok)

/-- exec_driver.rs:237-279 `shutdown`: ask, wait, kill. However the process reacts, afterwards it does not run. -/
def shutdown (s : St) : St :=
  match s.child with
  | none => s
  | some p => { s with alive := s.alive.filter (· ≠ p) }

def isInit : Act → Bool
  | .init _ => true
  | _ => false

def failsWait : Act → Bool
  | .tick err _ => err
  | _ => false

/-! ### One process at a time -/

/-- What runs is the child and nothing else. -/
def One (s : St) : Prop := ∀ p ∈ s.alive, s.child = some p

def Fresh (s : St) : Prop := (∀ p ∈ s.alive, p < s.next) ∧ s.alive.Nodup

theorem launch_fresh {s : St} (h : Fresh s) (ok : Bool) : Fresh (launch s ok) := by
  unfold launch
  split_ifs
  · refine ⟨?_, ?_⟩
    · intro p hp
      rcases List.mem_cons.1 hp with h1 | h1
      · dsimp only; omega
      · have := h.1 p h1; dsimp only; omega
    · exact List.nodup_cons.2 ⟨fun h' => absurd (h.1 _ h') (Nat.lt_irrefl _), h.2⟩
  · exact h

theorem checkHealth_alive (s : St) (err : Bool) : (checkHealth s err).2.alive = s.alive ∧ (checkHealth s err).2.next = s.next ∧
    (checkHealth s err).2.restarts = s.restarts ∧ (checkHealth s err).2.slept = s.slept := by
  unfold checkHealth
  cases s.child with
  | none => exact ⟨rfl, rfl, rfl, rfl⟩
  | some p =>
    dsimp only
    split_ifs <;> exact ⟨rfl, rfl, rfl, rfl⟩

theorem step_one (c : Config) (s : St) (a : Act) (h : One s) (ha : isInit a = false) (hf : failsWait a = false) : One (step c s a) := by
  cases a with
  | init ok => exact absurd ha (by simp [isInit])
  | ends p st =>
    intro q hq
    exact h q (List.mem_of_mem_filter hq)
  | tick err ok =>
    have he : err = false := by simpa [failsWait] using hf
    subst he
    show One (tick c s false ok)
    unfold tick
    by_cases hs : s.started = false
    · rw [if_pos hs]; exact h
    · rw [if_neg hs]
      cases hc : s.child with
      | none =>
        have hal : s.alive = [] := by
          cases hl : s.alive with
          | nil => rfl
          | cons p l => exact absurd (h p (by rw [hl]; exact List.mem_cons_self)) (by rw [hc]; simp)
        simp only [checkHealth, hc]
        split_ifs with h1
        · unfold launch
          split_ifs
          · intro p hp
            dsimp only at hp ⊢
            rw [hal] at hp
            rw [List.mem_singleton.1 hp]
          · intro p hp
            dsimp only at hp
            rw [hal] at hp
            cases hp
        · exact h
      | some q =>
        simp only [checkHealth, hc, Bool.false_eq_true, if_false]
        by_cases hq : q ∈ s.alive
        · rw [if_pos hq]
          dsimp only
          rw [if_neg (by simp)]
          exact h
        · rw [if_neg hq]
          dsimp only
          have hal : s.alive = [] := by
            cases hl : s.alive with
            | nil => rfl
            | cons p l =>
              have := h p (by rw [hl]; exact List.mem_cons_self)
              rw [hc] at this
              cases this
              exact absurd (by rw [hl]; exact List.mem_cons_self) hq
          split_ifs with h1
          · unfold launch
            split_ifs
            · intro p hp
              dsimp only at hp ⊢
              rw [hal] at hp
              rw [List.mem_singleton.1 hp]
            · intro p hp
              dsimp only at hp
              rw [hal] at hp
              cases hp
          · intro p hp
            dsimp only at hp
            rw [hal] at hp
            cases hp

theorem step_fresh (c : Config) (s : St) (a : Act) (h : Fresh s) : Fresh (step c s a) := by
  cases a with
  | init ok => exact launch_fresh h ok
  | ends p st => exact ⟨fun q hq => h.1 q (List.mem_of_mem_filter hq), h.2.filter _⟩
  | tick err ok =>
    show Fresh (tick c s err ok)
    unfold tick
    split_ifs with hs
    · exact h
    · obtain ⟨h1, h2, _⟩ := checkHealth_alive s err
      have hF : Fresh (checkHealth s err).2 := by
        refine ⟨?_, ?_⟩
        · rw [h1, h2]; exact h.1
        · rw [h1]; exact h.2
      dsimp only
      split_ifs
      · apply launch_fresh
        exact ⟨hF.1, hF.2⟩
      · exact hF

theorem run_snoc (c : Config) (ok : Bool) (as : List Act) (a : Act) : run c ok (as ++ [a]) = step c (run c ok as) a := by
  unfold run
  rw [List.foldl_append]
  rfl

theorem run_inv (c : Config) (ok : Bool) (as : List Act) (hi : ∀ a ∈ as, isInit a = false) (hf : ∀ a ∈ as, failsWait a = false) :
    One (run c ok as) ∧ Fresh (run c ok as) := by
  have key : ∀ (as : List Act) (s : St), One s → Fresh s → (∀ a ∈ as, isInit a = false) → (∀ a ∈ as, failsWait a = false) →
      One (as.foldl (step c) s) ∧ Fresh (as.foldl (step c) s) := by
    intro as
    induction as with
    | nil => intro s h1 h2 _ _; exact ⟨h1, h2⟩
    | cons a as ih =>
      intro s h1 h2 h3 h4
      exact ih _ (step_one c s a h1 (h3 a List.mem_cons_self) (h4 a List.mem_cons_self)) (step_fresh c s a h2)
        (fun b hb => h3 b (List.mem_cons_of_mem _ hb)) fun b hb => h4 b (List.mem_cons_of_mem _ hb)
  refine key as _ ?_ (launch_fresh ⟨fun _ h => absurd h List.not_mem_nil, List.nodup_nil⟩ ok) hi hf
  unfold launch St.new
  split_ifs
  · intro p hp; rw [List.mem_singleton.1 hp]
  · intro p hp; cases hp

/-- **One process at a time, none afterwards.** As long as the process can be asked for its state, at most one process of
the driver runs at any time, and after `shutdown` none. -/
theorem one_process_partial (c : Config) (ok : Bool) (as : List Act) (hi : ∀ a ∈ as, isInit a = false) (hf : ∀ a ∈ as, failsWait a = false) :
    (run c ok as).alive.length ≤ 1 ∧ (shutdown (run c ok as)).alive = [] := by
  obtain ⟨h1, h2⟩ := run_inv c ok as hi hf
  cases hal : (run c ok as).alive with
  | nil =>
    refine ⟨Nat.zero_le _, ?_⟩
    unfold shutdown
    cases (run c ok as).child with
    | none => exact hal
    | some p => dsimp only; rw [hal]; rfl
  | cons p l =>
    have hp := h1 p (by rw [hal]; exact List.mem_cons_self)
    have hl : l = [] := by
      cases l with
      | nil => rfl
      | cons q l =>
        have hq := h1 q (by rw [hal]; simp)
        rw [hp] at hq
        cases hq
        have := h2.2
        rw [hal] at this
        exact absurd List.mem_cons_self (List.nodup_cons.1 this).1
    refine ⟨by rw [hl]; simp, ?_⟩
    unfold shutdown
    rw [hp]
    dsimp only
    rw [hal, hl]
    simp

/-! ### Restarts -/

theorem step_count (c : Config) (s : St) (a : Act) (ha : isInit a = false) :
    (step c s a).next + s.restarts ≤ s.next + (step c s a).restarts ∧ s.restarts ≤ (step c s a).restarts ∧
    (s.restarts ≤ c.retries → (step c s a).restarts ≤ c.retries) ∧
    (step c s a).slept = s.slept ++ (List.range' (s.restarts + 1) ((step c s a).restarts - s.restarts)).map (waitFor c) := by
  cases a with
  | init ok => exact absurd ha (by simp [isInit])
  | ends p st => exact ⟨Nat.le_refl _, Nat.le_refl _, fun h => h, by show s.slept = s.slept ++ (List.range' (s.restarts + 1) (s.restarts - s.restarts)).map (waitFor c); rw [Nat.sub_self]; simp⟩
  | tick err ok =>
    show (tick c s err ok).next + s.restarts ≤ s.next + (tick c s err ok).restarts ∧ s.restarts ≤ (tick c s err ok).restarts ∧
      (s.restarts ≤ c.retries → (tick c s err ok).restarts ≤ c.retries) ∧
      (tick c s err ok).slept = s.slept ++ (List.range' (s.restarts + 1) ((tick c s err ok).restarts - s.restarts)).map (waitFor c)
    unfold tick
    by_cases hs : s.started = false
    · rw [if_pos hs]
      exact ⟨Nat.le_refl _, Nat.le_refl _, fun h => h, by rw [Nat.sub_self]; simp⟩
    · rw [if_neg hs]
      obtain ⟨h1, h2, h3, h4⟩ := checkHealth_alive s err
      dsimp only
      by_cases hc : (checkHealth s err).1 = false ∧ (checkHealth s err).2.restarts < c.retries
      · rw [if_pos hc]
        unfold launch
        have hc2 := hc.2
        rw [h3] at hc2
        split_ifs
        · dsimp only
          rw [h2, h3, h4, Nat.add_sub_cancel_left]
          exact ⟨by omega, by omega, fun _ => by omega, rfl⟩
        · dsimp only
          rw [h2, h3, h4, Nat.add_sub_cancel_left]
          exact ⟨by omega, by omega, fun _ => by omega, rfl⟩
      · rw [if_neg hc, h2, h3, h4, Nat.sub_self]
        exact ⟨Nat.le_refl _, Nat.le_refl _, fun h => h, by simp⟩

theorem run_count (c : Config) (ok : Bool) (as : List Act) (hi : ∀ a ∈ as, isInit a = false) :
    (run c ok as).next ≤ 1 + (run c ok as).restarts ∧ (run c ok as).restarts ≤ c.retries ∧
    (run c ok as).slept = (List.range' 1 (run c ok as).restarts).map (waitFor c) := by
  have key : ∀ (as : List Act) (s : St), (∀ a ∈ as, isInit a = false) → s.next ≤ 1 + s.restarts → s.restarts ≤ c.retries →
      s.slept = (List.range' 1 s.restarts).map (waitFor c) →
      (as.foldl (step c) s).next ≤ 1 + (as.foldl (step c) s).restarts ∧ (as.foldl (step c) s).restarts ≤ c.retries ∧
      (as.foldl (step c) s).slept = (List.range' 1 (as.foldl (step c) s).restarts).map (waitFor c) := by
    intro as
    induction as with
    | nil => intro s _ h1 h2 h3; exact ⟨h1, h2, h3⟩
    | cons a as ih =>
      intro s hi h1 h2 h3
      obtain ⟨k1, k2, k3, k4⟩ := step_count c s a (hi a List.mem_cons_self)
      refine ih _ (fun b hb => hi b (List.mem_cons_of_mem _ hb)) (by omega) (k3 h2) ?_
      obtain ⟨d, hd⟩ : ∃ d, (step c s a).restarts = s.restarts + d := ⟨(step c s a).restarts - s.restarts, by omega⟩
      rw [k4, h3, ← List.map_append]
      have e1 : (step c s a).restarts - s.restarts = d := by omega
      rw [e1, hd, show s.restarts + 1 = 1 + s.restarts by omega, List.range'_append_1]
  refine key as _ hi ?_ ?_ ?_
  · unfold launch St.new; split_ifs <;> simp
  · unfold launch St.new; split_ifs <;> simp
  · unfold launch St.new; split_ifs <;> simp

/-- **The restarts are bounded.** In the whole life of the node at most `retries` restarts are tried, the program is started
at most once more often than that, and the wait before the j-th is the delay doubled j - 1 times, at most 30 s. -/
theorem restarts_bounded (c : Config) (ok : Bool) (as : List Act) (hi : ∀ a ∈ as, isInit a = false) :
    (run c ok as).next ≤ 1 + c.retries ∧ ∃ k ≤ c.retries, (run c ok as).slept = (List.range k).map fun j => min (c.delay * 2 ^ j) 30000 := by
  obtain ⟨h1, h2, h3⟩ := run_count c ok as hi
  refine ⟨by omega, (run c ok as).restarts, h2, ?_⟩
  rw [h3, List.range'_eq_map_range, List.map_map]
  apply List.map_congr_left
  intro j _
  show waitFor c (1 + j) = _
  unfold waitFor
  rw [Nat.add_sub_cancel_left]

/-- **A dead program is started again** on the next tick, while restarts are left and it can be started. -/
theorem crash_restarts (c : Config) (s : St) (p : Nat) (hs : s.started = true) (hc : s.child = some p) (hd : p ∉ s.alive) (hr : s.restarts < c.retries) :
    (tick c s false true).child = some s.next ∧ s.next ∈ (tick c s false true).alive := by
  unfold tick
  rw [if_neg (by rw [hs]; simp)]
  simp only [checkHealth, hc, Bool.false_eq_true, if_false, if_neg hd]
  rw [if_pos ⟨trivial, hr⟩]
  unfold launch
  rw [if_pos rfl]
  exact ⟨rfl, List.mem_cons_self⟩

/-- **A program that ended well is started again too**: its exit status plays no part. -/
theorem status_ignored (c : Config) (s : St) (p a b : Nat) : step c s (.ends p a) = step c s (.ends p b) := rfl

/-- **The restarts are for life.** Once `retries` restarts are used up, however long ago, the program that ends is never
started again, and the node goes on ticking without it. -/
theorem gives_up_for_good (c : Config) (s : St) (h : s.restarts = c.retries) (as : List Act) (hi : ∀ a ∈ as, isInit a = false) :
    (as.foldl (step c) s).next = s.next := by
  have key : ∀ (as : List Act) (s : St), s.restarts = c.retries → (∀ a ∈ as, isInit a = false) → (as.foldl (step c) s).next = s.next := by
    intro as
    induction as with
    | nil => intro s _ _; rfl
    | cons a as ih =>
      intro s h hi
      rw [List.foldl_cons]
      have hstep : (step c s a).next = s.next ∧ (step c s a).restarts = s.restarts := by
        cases a with
        | init ok => exact absurd (hi _ List.mem_cons_self) (by simp [isInit])
        | ends p st => exact ⟨rfl, rfl⟩
        | tick err ok =>
          show (tick c s err ok).next = s.next ∧ (tick c s err ok).restarts = s.restarts
          unfold tick
          split_ifs with hs
          · exact ⟨rfl, rfl⟩
          · obtain ⟨_, h2, h3, _⟩ := checkHealth_alive s err
            dsimp only
            rw [if_neg (by rw [h3]; omega)]
            exact ⟨h2, h3⟩
      rw [ih _ (by rw [hstep.2, h]) fun b hb => hi b (List.mem_cons_of_mem _ hb), hstep.1]
  exact key as s h hi

/-! ### Findings -/

/-- The processes started by k failing ticks after `init`: k, k - 1, …, 0. -/
def downFrom : Nat → List Nat
  | 0 => [0]
  | k + 1 => (k + 1) :: downFrom k

theorem downFrom_lt (k : Nat) : ∀ p ∈ downFrom k, p ≤ k := by
  induction k with
  | zero => intro p hp; exact Nat.le_of_eq (List.mem_singleton.1 hp)
  | succ k ih =>
    intro p hp
    rcases List.mem_cons.1 hp with h | h
    · omega
    · have := ih p h; omega

theorem downFrom_length (k : Nat) : (downFrom k).length = k + 1 := by
  induction k with
  | zero => rfl
  | succ k ih => rw [downFrom, List.length_cons, ih]

/-- **A failing `try_wait` multiplies the program.** If asking for the state fails, the driver starts another one beside the
one that runs: after k such ticks there are k + 1, and `shutdown` ends only the last of them. -/
theorem wait_error_duplicates (c : Config) (k : Nat) (hk : k ≤ c.retries) :
    (run c true (List.replicate k (.tick true true))).alive.length = k + 1 ∧ (shutdown (run c true (List.replicate k (.tick true true)))).alive.length = k := by
  have key : ∀ k, k ≤ c.retries → (run c true (List.replicate k (.tick true true))).alive = downFrom k ∧ (run c true (List.replicate k (.tick true true))).next = k + 1 ∧
      (run c true (List.replicate k (.tick true true))).child = some k ∧ (run c true (List.replicate k (.tick true true))).restarts = k ∧
      (run c true (List.replicate k (.tick true true))).started = true := by
    intro k
    induction k with
    | zero => intro _; exact ⟨rfl, rfl, rfl, rfl, rfl⟩
    | succ k ih =>
      intro hk
      obtain ⟨h1, h2, h3, h4, h5⟩ := ih (by omega)
      rw [List.replicate_succ', run_snoc]
      generalize run c true (List.replicate k (.tick true true)) = s at h1 h2 h3 h4 h5
      show (tick c s true true).alive = _ ∧ (tick c s true true).next = _ ∧ (tick c s true true).child = _ ∧ (tick c s true true).restarts = _ ∧ (tick c s true true).started = true
      unfold tick
      rw [if_neg (by rw [h5]; simp)]
      simp only [checkHealth, h3, if_true]
      rw [if_pos ⟨trivial, by omega⟩]
      simp only [launch, if_true]
      rw [h1, h2, h4]
      exact ⟨rfl, rfl, rfl, rfl, trivial⟩
  obtain ⟨h1, _, h3, _⟩ := key k hk
  refine ⟨by rw [h1, downFrom_length], ?_⟩
  unfold shutdown
  rw [h3]
  dsimp only
  rw [h1]
  cases k with
  | zero => rfl
  | succ k =>
    rw [downFrom, List.filter_cons_of_neg (by simp), List.filter_eq_self.2, downFrom_length]
    intro p hp
    have := downFrom_lt k p hp
    simp
    omega

/-- **The wait overflows.** With the default delay of one second restarts 1 to 55 are computed as meant, and restart 56 (and every later
one) overflows 64 bits. -/
theorem wait_overflows (retries : Nat) : (∀ n, 1 ≤ n → n ≤ 55 → overflows ⟨retries, 1000⟩ n = false) ∧ (∀ n, 56 ≤ n → overflows ⟨retries, 1000⟩ n = true) := by
  refine ⟨fun n h1 h2 => ?_, fun n h => ?_⟩
  · unfold overflows
    have hp : 2 ^ (n - 1) ≤ 2 ^ 54 := Nat.pow_le_pow_right (by omega) (by omega)
    simp only [decide_eq_false_iff_not, not_or, Nat.not_le, ge_iff_le]
    have : (2 : Nat) ^ 54 * 1000 < 2 ^ 64 := by decide
    constructor <;> omega
  · unfold overflows
    have hp : 2 ^ 55 ≤ 2 ^ (n - 1) := Nat.pow_le_pow_right (by omega) (by omega)
    simp only [decide_eq_true_eq]
    have : (2 : Nat) ^ 64 ≤ 2 ^ 55 * 1000 := by decide
    right
    omega

example : (run ⟨3, 1000⟩ true [.ends 0 1, .tick false true, .ends 1 0, .tick false true]).slept = [1000, 2000] := by decide

example : (run ⟨3, 1000⟩ true [.ends 0 1, .tick false true]).alive = [1] := by decide

end Horus.ExecDriver
