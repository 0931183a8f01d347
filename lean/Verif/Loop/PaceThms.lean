import Verif.Loop.Pace
import Mathlib.Tactic.Ring

/-!
C105 rates, C106 deterministic time, C107 load shedding, C108 RT isolation.
-/

namespace Horus.Pace

/-! ### C105: rates -/

theorem lastBefore_of_fires {g L S l0 j} (h : fires g L S l0 j = true) : lastBefore g L S l0 (j + 1) = some (S j) := by
  unfold fires at h
  unfold lastBefore
  cases e : lastBefore g L S l0 j with
  | none => rfl
  | some t => rw [e] at h; simp only at h ⊢; rw [if_pos h]

/-- After a tick in cycle `j`, `last_tick` before any later cycle is the stamp of a tick in some
cycle from `j` on. -/
theorem lastBefore_later {g L S l0 j} (h : fires g L S l0 j = true) (d : Nat) :
    ∃ i, j ≤ i ∧ i < j + 1 + d ∧ lastBefore g L S l0 (j + 1 + d) = some (S i) := by
  induction d with
  | zero => exact ⟨j, Nat.le_refl _, by omega, lastBefore_of_fires h⟩
  | succ d ih =>
    obtain ⟨i, h1, h2, h3⟩ := ih
    have e : j + 1 + (d + 1) = (j + 1 + d) + 1 := by omega
    by_cases c : g (L (j + 1 + d)) (S i) = true
    · refine ⟨j + 1 + d, by omega, by omega, ?_⟩
      rw [e, lastBefore, h3]; simp only; rw [if_pos c]
    · refine ⟨i, h1, by omega, ?_⟩
      rw [e, lastBefore, h3]; simp only; rw [if_neg c]

/-- Spacing of ticks: whatever the gate guarantees about "now − last tick" holds between any two
ticks of the node. -/
theorem spaced {g : Nat → Nat → Bool} {L S l0} {p : Nat} (hS : ∀ i k, i < k → S i ≤ S k)
    (hg : ∀ now last, g now last = true → last + p ≤ now ∨ now - last ≥ p) {j k} (hjk : j < k)
    (hj : fires g L S l0 j = true) (hk : fires g L S l0 k = true) : p ≤ L k - S j := by
  obtain ⟨d, rfl⟩ : ∃ d, k = j + 1 + d := ⟨k - (j + 1), by omega⟩
  obtain ⟨i, h1, h2, h3⟩ := lastBefore_later hj d
  unfold fires at hk
  rw [h3] at hk
  have hle : S j ≤ S i := by
    rcases Nat.eq_or_lt_of_le h1 with rfl | h
    · exact Nat.le_refl _
    · exact hS _ _ h
  rcases hg _ _ hk with h | h <;> omega

/-- C105 for main-thread, compute and async nodes: between the `last_tick` stamp of any tick and the
start of any later tick's cycle at least one configured period passes, so the node is never faster
than its rate, for every timing of the loop. -/
theorem strict_never_faster (p : Nat) (L S : Nat → Nat) (l0) (hS : ∀ i k, i < k → S i ≤ S k) {j k}
    (hjk : j < k) (hj : fires (strictGate p) L S l0 j = true) (hk : fires (strictGate p) L S l0 k = true) :
    p ≤ L k - S j :=
  spaced hS (fun now last h => by
    unfold strictGate at h; simp only [Bool.not_eq_true', decide_eq_false_iff_not] at h; right; omega) hjk hj hk

/-- C105 for RT nodes, partial: the guarantee is one period minus half a loop period. -/
theorem rt_spacing_partial (p T : Nat) (L S : Nat → Nat) (l0) (hS : ∀ i k, i < k → S i ≤ S k) {j k}
    (hjk : j < k) (hj : fires (rtGate p T) L S l0 j = true) (hk : fires (rtGate p T) L S l0 k = true) :
    2 * p - T ≤ 2 * (L k - S j) := by
  obtain ⟨d, rfl⟩ : ∃ d, k = j + 1 + d := ⟨k - (j + 1), by omega⟩
  obtain ⟨i, h1, h2, h3⟩ := lastBefore_later hj d
  unfold fires at hk
  rw [h3] at hk
  unfold rtGate at hk
  simp only [Bool.not_eq_true', decide_eq_false_iff_not] at hk
  have hle : S j ≤ S i := by
    rcases Nat.eq_or_lt_of_le h1 with rfl | h
    · exact Nat.le_refl _
    · exact hS _ _ h
  omega

/-- The full claim fails for RT nodes: a node whose period is one and a half loop periods ticks in
every loop, i.e. half as fast again as configured, forever. -/
theorem rt_faster_than_configured (h : Nat) (k : Nat) :
    fires (rtGate (3 * h) (2 * h)) (fun k => 2 * h * k) (fun k => 2 * h * k) none k = true := by
  induction k with
  | zero => rfl
  | succ k ih =>
    unfold fires
    rw [lastBefore_of_fires ih]
    have e : 2 * h * (k + 1) = 2 * h * k + 2 * h := by ring
    simp only [rtGate, e, Bool.not_eq_true', decide_eq_false_iff_not]
    omega

/-- An RT node at the loop's own rate ticks in every loop as long as its tick starts within half a
period of the loop's start. -/
theorem rt_keeps_rate (T : Nat) (L S : Nat → Nat) (l0) (h0 : l0 = none)
    (hL : ∀ k, L k + T ≤ L (k + 1)) (hS : ∀ k, 2 * S k ≤ 2 * L k + T) (k : Nat) :
    fires (rtGate T T) L S l0 k = true := by
  induction k with
  | zero => unfold fires lastBefore; rw [h0]
  | succ k ih =>
    unfold fires
    rw [lastBefore_of_fires ih]
    have := hL k; have := hS k
    simp only [rtGate, Bool.not_eq_true', decide_eq_false_iff_not]
    omega

/-- On the main thread a node whose period is at most the loop's ticks in every round: the loop
sleeps a whole period after the stamp. -/
theorem main_keeps_rate (p T : Nat) (w : Nat → Nat) (hp : p ≤ T) (S : Nat → Nat)
    (hS : ∀ k, S k ≤ mainStart T w k + w k) (k : Nat) :
    fires (strictGate p) (mainStart T w) S none k = true := by
  induction k with
  | zero => rfl
  | succ k ih =>
    unfold fires
    rw [lastBefore_of_fires ih]
    have := hS k
    have e : mainStart T w (k + 1) = mainStart T w k + w k + T := rfl
    simp only [strictGate, e, Bool.not_eq_true', decide_eq_false_iff_not]
    omega

/-- On the compute and async pools such a node ticks only in every other cycle whenever sleeps end
on time: the gate compares the cycle's start with a stamp taken a little after the previous cycle's
start. -/
theorem compute_halves_rate (T e : Nat) (he : 0 < e) (heT : e ≤ T) (k : Nat) :
    fires (strictGate T) (fun k => T * k) (fun k => T * k + e) none k = decide (k % 2 = 0) := by
  have main : ∀ m, lastBefore (strictGate T) (fun k => T * k) (fun k => T * k + e) none (2 * m + 1) = some (T * (2 * m) + e) ∧
      lastBefore (strictGate T) (fun k => T * k) (fun k => T * k + e) none (2 * m + 2) = some (T * (2 * m) + e) := by
    intro m
    induction m with
    | zero =>
      refine ⟨rfl, ?_⟩
      simp only [lastBefore, strictGate]
      have : ¬ (!decide (T * (2 * 0 + 1) - (T * 0 + e) < T)) = true := by simp; omega
      simp only [Nat.mul_zero, Nat.zero_add] at this ⊢
      rw [if_neg this]
    | succ m ih =>
      have e1 : 2 * (m + 1) + 1 = (2 * m + 2) + 1 := by ring
      have h1 : lastBefore (strictGate T) (fun k => T * k) (fun k => T * k + e) none (2 * (m + 1) + 1) = some (T * (2 * (m + 1)) + e) := by
        rw [e1, lastBefore, ih.2]
        simp only
        have : strictGate T (T * (2 * m + 2)) (T * (2 * m) + e) = true := by
          have : T * (2 * m + 2) = T * (2 * m) + T + T := by ring
          simp only [strictGate, this, Bool.not_eq_true', decide_eq_false_iff_not]; omega
        rw [if_pos this]
        rfl
      refine ⟨h1, ?_⟩
      have e2 : 2 * (m + 1) + 2 = (2 * (m + 1) + 1) + 1 := by ring
      rw [e2, lastBefore, h1]
      simp only
      have : ¬ strictGate T (T * (2 * (m + 1) + 1)) (T * (2 * (m + 1)) + e) = true := by
        have : T * (2 * (m + 1) + 1) = T * (2 * (m + 1)) + T := by ring
        simp only [strictGate, this, Bool.not_eq_true', decide_eq_false_iff_not]; omega
      rw [if_neg this]
  rcases Nat.even_or_odd' k with ⟨m, rfl | rfl⟩
  · have hd : decide (2 * m % 2 = 0) = true := by simp
    rw [hd]
    cases m with
    | zero => rfl
    | succ m =>
      unfold fires
      rw [show 2 * (m + 1) = 2 * m + 2 by ring, (main m).2]
      have : T * (2 * m + 2) = T * (2 * m) + T + T := by ring
      simp only [strictGate, this, Bool.not_eq_true', decide_eq_false_iff_not]; omega
  · have hd : decide ((2 * m + 1) % 2 = 0) = false := by simp
    rw [hd]
    unfold fires
    rw [(main m).1]
    have : T * (2 * m + 1) = T * (2 * m) + T := by ring
    simp only [strictGate, this, Bool.not_eq_false', decide_eq_true_eq]; omega

/-- The general condition on those pools: after a tick stamped `e` after the cycle's start, the node
ticks again in the next cycle exactly if that cycle starts at least `e` late. -/
theorem compute_next_cycle (T : Nat) (L S : Nat → Nat) (l0) (k e o : Nat)
    (hf : fires (strictGate T) L S l0 k = true) (hS : S k = L k + e) (hL : L (k + 1) = L k + T + o) :
    fires (strictGate T) L S l0 (k + 1) = decide (e ≤ o ∨ T = 0) := by
  unfold fires
  rw [lastBefore_of_fires hf]
  simp only [strictGate, hS, hL]
  by_cases c : e ≤ o ∨ T = 0
  · rw [decide_eq_true c]; simp only [Bool.not_eq_true', decide_eq_false_iff_not]; omega
  · rw [decide_eq_false c]; simp only [Bool.not_eq_false', decide_eq_true_eq]; omega

/-- Sum of the first `n` values. -/
def total (w : Nat → Nat) : Nat → Nat
  | 0 => 0
  | n + 1 => total w n + w n

/-- The main loop's period is the configured period *plus* the work done in it: `n` rounds take
`n` periods plus all the work, so the configured rate is reached only by a loop that does no work. -/
theorem main_loop_time (T w n) : mainStart T w n = n * T + total w n := by
  induction n with
  | zero => simp [mainStart, total]
  | succ n ih => simp only [mainStart, total, ih]; ring

/-- The executors' loops keep their rate exactly while no cycle overruns. -/
theorem exec_loop_time (T w n) (h : ∀ k < n, w k ≤ T) : execStart T w n = n * T := by
  induction n with
  | zero => simp [execStart]
  | succ n ih =>
    simp only [execStart, ih (fun k hk => h k (by omega)), Nat.max_eq_left (h n (by omega))]; ring

/-- At 1 ms per period and 1 ms of work, 100 rounds of the main loop take twice as long as the 100
loops of an executor. -/
example : mainStart 1000000 (fun _ => 1000000) 100 = 200000000 ∧ execStart 1000000 (fun _ => 1000000) 100 = 100000000 := by
  rw [main_loop_time, exec_loop_time _ _ _ (fun _ _ => Nat.le_refl _)]; decide

/-! ### C106: deterministic time -/

theorem detRound_spec (T k clk) :
    detRound T k clk = ((List.range k).map (fun j => clk + j * T), clk + k * T) := by
  induction k generalizing clk with
  | zero => simp [detRound]
  | succ k ih =>
    rw [detRound, ih, List.range_succ_eq_map]
    simp only [List.map_cons, List.map_map, Prod.mk.injEq, List.cons.injEq]
    refine ⟨⟨by ring, ?_⟩, by ring⟩
    apply List.map_congr_left
    intro j _
    simp only [Function.comp, Nat.succ_eq_add_one]; ring

/-- C106: how a deterministic `run_for d` of a graph with `k` steps proceeds: it runs exactly
`⌈d / (k·T)⌉` rounds, and the step `j` of round `r` sees the virtual time
`start + (r·k + j)·T`; nothing depends on how fast the machine is. -/
theorem det_run_for (T k d start : Nat) (hk : 0 < k * T) (fuel : Nat) (hf : (d + k * T - 1) / (k * T) ≤ fuel) :
    detRunFor T k d start fuel start =
      some ((List.range ((d + k * T - 1) / (k * T))).map fun r =>
        (List.range k).map fun j => start + (r * k + j) * T) := by
  have gen : ∀ (N fuel m : Nat), m + N = (d + k * T - 1) / (k * T) → N ≤ fuel →
      detRunFor T k d start fuel (start + m * (k * T)) =
        some ((List.range N).map fun r => (List.range k).map fun j => start + ((m + r) * k + j) * T) := by
    intro N
    induction N with
    | zero =>
      intro fuel m hm _
      have h1 : start + m * (k * T) - start ≥ d := by
        have hdm := Nat.div_add_mod (d + k * T - 1) (k * T)
        have hlt := Nat.mod_lt (d + k * T - 1) hk
        rw [← hm, Nat.mul_comm] at hdm
        simp only [Nat.add_zero] at hdm
        omega
      unfold detRunFor
      rw [if_pos h1]; rfl
    | succ N ih =>
      intro fuel m hm hfu
      have h1 : ¬ (start + m * (k * T) - start ≥ d) := by
        have hdm := Nat.div_add_mod (d + k * T - 1) (k * T)
        have : m + 1 ≤ (d + k * T - 1) / (k * T) := by omega
        have h2 := Nat.mul_le_mul_left (k * T) this
        have h3 : k * T * (m + 1) = m * (k * T) + k * T := by ring
        omega
      obtain ⟨f, rfl⟩ : ∃ f, fuel = f + 1 := ⟨fuel - 1, by omega⟩
      unfold detRunFor
      rw [if_neg h1, detRound_spec]
      simp only
      have e : start + m * (k * T) + k * T = start + (m + 1) * (k * T) := by ring
      rw [e, ih f (m + 1) (by omega) (by omega), List.range_succ_eq_map]
      simp only [Option.map_some, List.map_cons, List.map_map, Option.some.injEq, List.cons.injEq]
      refine ⟨?_, ?_⟩
      · apply List.map_congr_left; intro j _; ring
      · apply List.map_congr_left; intro r _
        simp only [Function.comp]
        apply List.map_congr_left; intro j _
        have : m + 1 + r = m + (r + 1) := by ring
        rw [this]
  have := gen ((d + k * T - 1) / (k * T)) fuel 0 (by omega) hf
  simpa using this

/-- The documented reading, "one tick period per tick", for graphs with a single step:
`run_for (n·T)` executes exactly `n` ticks of every node. Missing: graphs with more steps, where it
fails as shown next. -/
theorem det_run_for_ticks_partial (T n start : Nat) (hT : 0 < T) :
    (detRunFor T 1 (n * T) start n start).map List.length = some n := by
  have e : (n * T + 1 * T - 1) / (1 * T) = n := by
    have : n * T + 1 * T - 1 = T * n + (T - 1) := by rw [Nat.mul_comm]; omega
    rw [this, Nat.one_mul, Nat.mul_add_div hT, Nat.div_eq_of_lt (by omega)]; rfl
  rw [det_run_for T 1 (n * T) start (by omega) n (by rw [e]), e]
  simp

/-- With `k` dependency steps a deterministic run of `n·k` periods gives each node only `n` ticks. -/
theorem det_run_for_divided (T k n start : Nat) (hT : 0 < T) (hk : 0 < k) :
    (detRunFor T k (n * k * T) start n start).map List.length = some n := by
  have hkT : 0 < k * T := Nat.mul_pos hk hT
  have e : (n * k * T + k * T - 1) / (k * T) = n := by
    have : n * k * T + k * T - 1 = k * T * n + (k * T - 1) := by
      have : n * k * T = k * T * n := by ring
      omega
    rw [this, Nat.mul_add_div hkT, Nat.div_eq_of_lt (by omega)]; rfl
  rw [det_run_for T k (n * k * T) start hkT n (by rw [e]), e]
  simp

/-- Two dependent nodes, 100 Hz, `run_for(200 ms)`: 10 ticks instead of 20. -/
theorem det_two_steps_witness :
    (detRunFor 10 2 200 0 1000 0).map List.length = some 10 := by
  rw [det_run_for 10 2 200 0 (by decide) 1000 (by decide)]; rfl

/-- The time a node sees moves by `k` periods between its ticks, while the step it is told (`dt`) is
one period. -/
theorem det_time_vs_dt (T k d start fuel : Nat) (hk : 0 < k * T) (hf : (d + k * T - 1) / (k * T) ≤ fuel)
    (rounds : List (List Nat)) (h : detRunFor T k d start fuel start = some rounds) (r j t t' : Nat)
    (h1 : (rounds[r]?).bind (·[j]?) = some t) (h2 : (rounds[r + 1]?).bind (·[j]?) = some t') :
    t' = t + k * T := by
  rw [det_run_for T k d start hk fuel hf] at h
  simp only [Option.some.injEq] at h
  subst h
  simp only [List.getElem?_map, Option.bind_map, List.getElem?_range] at h1 h2
  rw [Option.bind_eq_some_iff] at h1 h2
  obtain ⟨a, ha, h1⟩ := h1
  obtain ⟨b, hb, h2⟩ := h2
  simp only [Function.comp, List.getElem?_map, Option.map_eq_some_iff] at h1 h2
  obtain ⟨x, hx, rfl⟩ := h1
  obtain ⟨y, hy, rfl⟩ := h2
  have ha' := List.getElem?_eq_some_iff.mp ha
  have hb' := List.getElem?_eq_some_iff.mp hb
  have hx' := List.getElem?_eq_some_iff.mp hx
  have hy' := List.getElem?_eq_some_iff.mp hy
  obtain ⟨_, ea⟩ := ha'
  obtain ⟨_, eb⟩ := hb'
  obtain ⟨_, ex⟩ := hx'
  obtain ⟨_, ey⟩ := hy'
  simp only [List.getElem_range] at ea eb ex ey
  subst ea eb ex ey
  ring

/-- If the graph has no steps, or could not be built, virtual time stands still and the run never
reaches its limit. -/
theorem det_no_graph_never_ends (T d start fuel : Nat) (hd : 0 < d) :
    detRunFor T 0 d start fuel start = none := by
  induction fuel with
  | zero => unfold detRunFor; rw [if_neg (by omega)]
  | succ f ih =>
    unfold detRunFor
    rw [if_neg (by omega)]
    simp only [detRound, ih, Option.map_none]

/-! ### C107: load shedding -/

/-- A node below the background tier is never shed: it ticks in every cycle in which it is due, in
whatever state the pool is. -/
theorem foreground_never_shed (s : Shed) (prio due i) (hp : prio i < 200) : s.ticks prio due i = due i := by
  unfold Shed.ticks shedThreshold
  have : decide (200 ≤ prio i) = false := by simp; omega
  rw [this]; simp

/-- Nothing is shed before a cycle has overrun. -/
theorem shed_only_after_overrun (n prio cs) (h : ∀ c ∈ cs, c.2 = false) (due i) :
    (Shed.run n prio {} cs).ticks prio due i = due i := by
  have : ∀ (s : Shed), s.active = false → (Shed.run n prio s cs).active = false := by
    induction cs with
    | nil => exact fun s hs => hs
    | cons c cs ih =>
      intro s hs
      refine ih (fun d hd => h d (List.mem_cons_of_mem _ hd)) (Shed.cycle n prio s c) ?_
      unfold Shed.cycle
      rw [h c List.mem_cons_self]
      simp [hs]
  unfold Shed.ticks
  rw [this {} rfl]; simp

theorem cycle_under {n prio s} {c : (Nat → Bool) × Bool} (hc : c.2 = false)
    (hf : ∃ i < n, prio i < 200 ∧ c.1 i = true) :
    Shed.cycle n prio s c = if s.active then (if s.cool - 1 = 0 then ⟨false, 0⟩ else ⟨true, s.cool - 1⟩) else s := by
  obtain ⟨i, hi, hp, hd⟩ := hf
  have : (List.range n).any (s.ticks prio c.1) = true := by
    rw [List.any_eq_true]
    exact ⟨i, List.mem_range.mpr hi, by rw [foreground_never_shed s prio c.1 i hp]; exact hd⟩
  unfold Shed.cycle
  rw [if_pos this, hc]; simp

theorem cool_le (n prio) (cs : List ((Nat → Bool) × Bool)) (s : Shed) (h : s.cool ≤ 3) :
    (Shed.run n prio s cs).cool ≤ 3 := by
  induction cs generalizing s with
  | nil => exact h
  | cons c cs ih =>
    refine ih _ ?_
    unfold Shed.cycle shedCooldown
    split_ifs <;> (try simp only) <;> omega

/-- Shedding ends: after any history, three cycles in a row that stay within the period and in
which some non-background node is due bring every due node back. Missing from the full claim ("the
background nodes resume once the load is normal"): cycles with no foreground node due, see below. -/
theorem shedding_ends_partial (n prio) (cs : List ((Nat → Bool) × Bool)) (a b c : (Nat → Bool) × Bool)
    (h : ∀ x ∈ [a, b, c], x.2 = false ∧ ∃ i < n, prio i < 200 ∧ x.1 i = true) (due i) :
    (Shed.run n prio {} (cs ++ [a, b, c])).ticks prio due i = due i := by
  have e : Shed.run n prio {} (cs ++ [a, b, c]) =
      Shed.cycle n prio (Shed.cycle n prio (Shed.cycle n prio (Shed.run n prio {} cs) a) b) c := by
    unfold Shed.run; rw [List.foldl_append]; rfl
  have hc := cool_le n prio cs {} (by decide)
  rw [e]
  generalize Shed.run n prio {} cs = s at hc
  have ha := h a (by simp); have hb := h b (by simp); have hcc := h c (by simp)
  have fin : (Shed.cycle n prio (Shed.cycle n prio (Shed.cycle n prio s a) b) c).active = false := by
    rw [cycle_under hcc.1 hcc.2, cycle_under hb.1 hb.2, cycle_under ha.1 ha.2]
    cases hx : s.active with
    | false => simp [hx]
    | true =>
      simp only [if_true]
      split_ifs <;> simp_all <;> omega
  unfold Shed.ticks
  rw [fin]; simp

/-- The claim fails for a pool of background nodes only: after a single cycle that overran, no node
of the pool is ever ticked again, whatever the load. -/
theorem background_pool_starves (n prio) (hp : ∀ i < n, 200 ≤ prio i) (s : Shed) (c : (Nat → Bool) × Bool)
    (hc : c.2 = true) (hr : ∃ i < n, s.ticks prio c.1 i = true) (cs : List ((Nat → Bool) × Bool)) (due) :
    ∀ i < n, (Shed.run n prio (Shed.cycle n prio s c) cs).ticks prio due i = false := by
  have step0 : (Shed.cycle n prio s c).active = true := by
    obtain ⟨i, hi, ht⟩ := hr
    have : (List.range n).any (s.ticks prio c.1) = true := by
      rw [List.any_eq_true]; exact ⟨i, List.mem_range.mpr hi, ht⟩
    unfold Shed.cycle
    rw [if_pos this, hc]; rfl
  have none : ∀ (s : Shed), s.active = true → ∀ due, ∀ i < n, s.ticks prio due i = false := by
    intro s hs due i hi
    unfold Shed.ticks shedThreshold
    rw [hs, decide_eq_true (hp i hi)]; simp
  have stay : ∀ (cs : List ((Nat → Bool) × Bool)) (s : Shed), s.active = true → Shed.run n prio s cs = s := by
    intro cs
    induction cs with
    | nil => intro s _; rfl
    | cons d cs ih =>
      intro s hs
      have e : Shed.cycle n prio s d = s := by
        have : ¬ (List.range n).any (s.ticks prio d.1) = true := by
          rw [List.any_eq_true]
          rintro ⟨i, hi, ht⟩
          rw [none s hs d.1 i (List.mem_range.mp hi)] at ht; cases ht
        unfold Shed.cycle; rw [if_neg this]
      show Shed.run n prio (Shed.cycle n prio s d) cs = s
      rw [e]; exact ih s hs
  rw [stay cs _ step0]
  exact none _ step0 due

/-- The hypotheses are met by a pool of two loggers of order 200 whose first cycle overran. -/
example : ∃ i < 2, ({} : Shed).ticks (fun _ => 200) (fun _ => true) i = true := ⟨0, by decide, by decide⟩

/-- And those of `shedding_ends_partial` by a pool with one ordinary and one background node. -/
example : ((Shed.run 2 (fun i => 200 * i) {} [(fun _ => true, true)]).ticks (fun i => 200 * i) (fun _ => true) 1 = false) ∧
    ((Shed.run 2 (fun i => 200 * i) {} ([(fun _ => true, true)] ++ [(fun _ => true, false), (fun _ => true, false), (fun _ => true, false)])).ticks
      (fun i => 200 * i) (fun _ => true) 1 = true) := by decide

/-! ### C108: RT isolation -/

theorem deal_ones {α} (xs : List α) : deal (List.replicate xs.length 1) xs = xs.map fun x => [x] := by
  induction xs with
  | nil => rfl
  | cons x xs ih => simp [List.replicate_succ, deal, ih]

/-- C108: each RT node gets a thread of its own, in registration order, whatever dependency graph
there is and in whatever order the chains come out of the hash map: a stalled RT node can never hold
up another RT node's thread. The other half of the source's comment, that dependent RT nodes share a
thread and so run in order, therefore never applies. -/
theorem rt_nodes_isolated {α} (graph : Bool) (σ : List Nat → List Nat) (hσ : ∀ l, (σ l).Perm l) (nodes : List α) :
    rtThreads graph σ nodes = nodes.map fun x => [x] := by
  unfold rtThreads
  split_ifs with hg
  · cases hl : nodes with
    | nil => rfl
    | cons a rest =>
      cases rest with
      | nil => rfl
      | cons b rest =>
        rw [← hl]
        have hlen : nodes.length = rest.length + 2 := by rw [hl]; rfl
        have hch : independentChains σ (List.range nodes.length) = (σ (List.range nodes.length)).map fun i => [i] := by
          rw [hlen]
          unfold independentChains
          have e : List.range (rest.length + 2) = 0 :: 1 :: (List.range rest.length).map (· + 2) := by
            rw [List.range_succ_eq_map, List.range_succ_eq_map]; simp [List.map_map, Function.comp_def]
          rw [e]
        simp only [hch, List.length_map, (hσ _).length_eq, List.length_range]
        rw [if_pos (by omega)]
        have : (List.map List.length (List.map (fun i => [i]) (σ (List.range nodes.length)))) = List.replicate nodes.length 1 := by
          rw [List.map_map]
          have : (List.length ∘ fun i : Nat => [i]) = fun _ => 1 := rfl
          rw [this, List.map_const', (hσ _).length_eq, List.length_range]
        rw [this, deal_ones]
  · rfl

/-- Three RT nodes of one dependency chain, chains delivered in reverse: three threads. -/
example : rtThreads true List.reverse ["sensor", "control", "motor"] = [["sensor"], ["control"], ["motor"]] := by decide

end Horus.Pace
