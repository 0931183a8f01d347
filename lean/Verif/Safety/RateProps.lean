import Verif.Safety.LadderProps
/-
The rate of a node on the ladder, and the probing of isolated nodes.
-/
namespace Horus.Safety.Monitor
open Horus.Ring (upd upd_same upd_ne)

variable {R : Type} (half : R → R) (hundred : R)

/-- What a decision does to the remembered rate: it is written down when the rate is reduced, unless one
is written down already, and nothing else touches it. -/
theorem evaluate_original (p : Policy) (hp : p.Ordered) (d : Degr R) (c : Nat) (rate : Option R) :
    (d.evaluate half hundred p c rate).1.original =
      if p.level c = 2 ∧ d.stage.rank < 2 then d.original.orElse (fun _ => rate) else d.original := by
  obtain ⟨h1, h2, h3⟩ := hp
  obtain ⟨st, o, rec⟩ := d
  unfold Degr.evaluate Policy.level
  by_cases k1 : p.killAfter ≤ c
  · have a1 : p.isolateAfter ≤ c := by omega
    have a2 : p.reduceAfter ≤ c := by omega
    have a3 : p.warnAfter ≤ c := by omega
    cases st <;> simp [k1, a1, a2, a3]
  · by_cases k2 : p.isolateAfter ≤ c
    · have a2 : p.reduceAfter ≤ c := by omega
      have a3 : p.warnAfter ≤ c := by omega
      cases st <;> simp [k1, k2, a2, a3]
    · by_cases k3 : p.reduceAfter ≤ c
      · have a3 : p.warnAfter ≤ c := by omega
        cases st <;> simp [k1, k2, k3, a3, Stage.rank]
      · by_cases k4 : p.warnAfter ≤ c
        · cases st <;> simp [k1, k2, k3, k4]
        · cases st <;> simp [k1, k2, k3, k4]

/-- And what a good tick does: it is forgotten exactly when the node is back to normal from a reduced
rate. -/
theorem success_original (p : Policy) (d : Degr R) :
    (d.success p).1.original = if d.stage = .rateReduced ∧ p.recoveryTicks ≤ d.recovery + 1 then none else d.original := by
  obtain ⟨st, o, rec⟩ := d
  unfold Degr.success
  cases st <;> simp
  · split <;> simp_all
  · split <;> rfl

/-- The rate a node registered with, and the ladder's memory of it. -/
structure RateInv (r0 : R) (n : Nat) (m : Mon R) (nd : Node R) : Prop where
  two : (((m.degr n).getD Degr.new).original = none ∧ nd.rate = some r0) ∨
    (((m.degr n).getD Degr.new).original = some r0 ∧ nd.rate = some (half r0))
  low : ((m.degr n).getD Degr.new).stage.rank < 2 → ((m.degr n).getD Degr.new).original = none

theorem rate_evaluate {r0 : R} {n : Nat} {m : Mon R} {nd : Node R} (h : RateInv half r0 n m nd) (c : Nat) :
    RateInv half r0 n (m.evaluate half hundred n c nd.rate).1 (nd.apply (m.evaluate half hundred n c nd.rate).2) := by
  obtain ⟨two, low⟩ := h
  unfold Mon.evaluate
  generalize (m.degr n).getD Degr.new = d at *
  have e : ({ m with degr := upd m.degr n (some (d.evaluate half hundred m.policy c nd.rate).1) } : Mon R).degr n =
      some (d.evaluate half hundred m.policy c nd.rate).1 := upd_same _ _ _
  obtain ⟨st, o, rec⟩ := d
  have low' : st.rank < 2 → o = none := low
  have two' : (o = none ∧ nd.rate = some r0) ∨ (o = some r0 ∧ nd.rate = some (half r0)) := two
  dsimp only
  unfold Degr.evaluate at *
  by_cases k1 : c ≥ m.policy.killAfter ∧ st ≠ .killed
  · rw [if_pos k1] at *
    refine ⟨?_, ?_⟩
    · rw [e]; exact two'
    · rw [e]; intro hlt; simp [Stage.rank] at hlt
  rw [if_neg k1] at *
  by_cases k2 : c ≥ m.policy.isolateAfter ∧ st ≠ .isolated ∧ st ≠ .killed
  · rw [if_pos k2] at *
    refine ⟨?_, ?_⟩
    · rw [e]; exact two'
    · rw [e]; intro hlt; simp [Stage.rank] at hlt
  rw [if_neg k2] at *
  by_cases k3 : c ≥ m.policy.reduceAfter ∧ st ≠ .rateReduced ∧ st ≠ .isolated ∧ st ≠ .killed
  · rw [if_pos k3] at *
    have ho : o = none := by
      apply low'
      cases st <;> simp_all [Stage.rank]
    subst ho
    have hr : nd.rate = some r0 := by rcases two' with h | h; exact h.2; simp at h
    refine ⟨?_, ?_⟩
    · rw [e]
      right
      simp [Node.apply, hr]
    · rw [e]; intro hlt; simp [Stage.rank] at hlt
  rw [if_neg k3] at *
  by_cases k4 : c ≥ m.policy.warnAfter ∧ st = .normal
  · rw [if_pos k4] at *
    refine ⟨?_, ?_⟩
    · rw [e]; exact two'
    · rw [e]; intro _; exact low' (by rw [k4.2]; decide)
  rw [if_neg k4] at *
  refine ⟨?_, ?_⟩
  · rw [e]; exact two'
  · rw [e]; exact low'

theorem rate_success {r0 : R} {n : Nat} {m : Mon R} {nd : Node R} (h : RateInv half r0 n m nd) :
    RateInv half r0 n (m.success n).1 (nd.apply (m.success n).2) := by
  obtain ⟨two, low⟩ := h
  unfold Mon.success
  cases hd : m.degr n with
  | none =>
    refine ⟨?_, ?_⟩
    · rw [hd] at two ⊢; exact two
    · rw [hd] at low ⊢; exact low
  | some d =>
    rw [hd] at two low
    have e : ({ m with degr := upd m.degr n (some (d.success m.policy).1) } : Mon R).degr n = some (d.success m.policy).1 := upd_same _ _ _
    obtain ⟨st, o, rec⟩ := d
    have low' : st.rank < 2 → o = none := low
    have two' : (o = none ∧ nd.rate = some r0) ∨ (o = some r0 ∧ nd.rate = some (half r0)) := two
    dsimp only
    unfold Degr.success at *
    cases st with
    | normal => exact ⟨by rw [e]; exact two', by rw [e]; exact low'⟩
    | warned => exact ⟨by rw [e]; exact two', by rw [e]; intro _; exact low' (by decide)⟩
    | killed => exact ⟨by rw [e]; exact two', by rw [e]; exact low'⟩
    | isolated =>
      dsimp only at *
      by_cases k : rec + 1 ≥ m.policy.recoveryTicks
      · rw [if_pos k] at *
        exact ⟨by simp only [upd_same, Option.getD_some]; exact two', by simp [Stage.rank]⟩
      · rw [if_neg k] at *
        exact ⟨by simp only [upd_same, Option.getD_some]; exact two', by simp [Stage.rank]⟩
    | rateReduced =>
      dsimp only at *
      by_cases k : rec + 1 ≥ m.policy.recoveryTicks
      · rw [if_pos k] at *
        refine ⟨?_, by simp⟩
        simp only [upd_same, Option.getD_some]
        left
        refine ⟨trivial, ?_⟩
        rcases two' with ⟨h1, h2⟩ | ⟨h1, h2⟩
        · subst h1; exact h2
        · subst h1; rfl
      · rw [if_neg k] at *
        exact ⟨by simp only [upd_same, Option.getD_some]; exact two', by simp [Stage.rank]⟩

theorem rate_ticks {r0 : R} {n : Nat} (bp : Nat → Tick → Mon R → Node R → Mon R)
    (hbp : ∀ k t m nd, (bp k t m nd).degr = m.degr) (ts : List Tick) :
    ∀ (m : Mon R) (nd : Node R), RateInv half r0 n m nd →
      RateInv half r0 n (ticks bp half hundred n (m, nd) ts).1.1 (ticks bp half hundred n (m, nd) ts).1.2 := by
  induction ts with
  | nil => intro m nd h; exact h
  | cons t ts ih =>
    intro m nd h
    unfold ticks
    by_cases hs : nd.stopped = true
    · rw [if_pos hs]; exact ih m nd h
    rw [if_neg hs]
    refine ih _ _ ?_
    have h1 : RateInv half r0 n (bp n t m nd) nd := ⟨by rw [hbp]; exact h.two, by rw [hbp]; exact h.low⟩
    have h2 : RateInv half r0 n (deadlinePart half hundred n t (bp n t m nd) nd).1 (deadlinePart half hundred n t (bp n t m nd) nd).2.1 := by
      unfold deadlinePart
      cases nd.deadline with
      | none => exact h1
      | some dl =>
        dsimp only
        by_cases hd : t.elapsed > dl
        · rw [if_pos hd]
          exact rate_evaluate half hundred (m := (bp n t m nd).recordMiss n 0) ⟨h1.two, h1.low⟩ _
        · rw [if_neg hd]; exact h1
    show RateInv half r0 n (successPart n t (deadlinePart half hundred n t (bp n t m nd) nd).1 (deadlinePart half hundred n t (bp n t m nd) nd).2.1).1
      (successPart n t (deadlinePart half hundred n t (bp n t m nd) nd).1 (deadlinePart half hundred n t (bp n t m nd) nd).2.1).2.1
    unfold successPart
    by_cases hok : t.ok = true
    · rw [if_pos hok]; exact rate_success half h2
    · rw [if_neg hok]; exact h2

theorem rt_degr (k : Nat) (t : Tick) (m : Mon R) (nd : Node R) : (rtBudget k t m nd).degr = m.degr := by
  unfold rtBudget; cases nd.budget <;> rfl

theorem main_degr (k : Nat) (t : Tick) (m : Mon R) (nd : Node R) : (mainBudget k t m nd).degr = m.degr := by
  unfold mainBudget
  cases nd.budget with
  | none => rfl
  | some b => dsimp only; split <;> rfl

/-- C55: whatever happens, a node with a rate runs at that rate or at half of it; whenever the ladder is
back at `normal` (or only warned) it runs at its own rate again, however often it was reduced. -/
theorem rate_restored (r0 : R) (n : Nat) (m : Mon R) (nd : Node R) (hf : Fresh n m nd) (hr : nd.rate = some r0) (ts : List Tick)
    (bp : Nat → Tick → Mon R → Node R → Mon R) (hbp : bp = rtBudget ∨ bp = mainBudget) :
    let s := (ticks bp half hundred n (m, nd) ts).1
    (s.2.rate = some r0 ∨ s.2.rate = some (half r0)) ∧ ((s.1.stage n = .normal ∨ s.1.stage n = .warned) → s.2.rate = some r0) := by
  have h0 : RateInv half r0 n m nd := by
    constructor
    · left; rw [hf.no_state]; exact ⟨rfl, hr⟩
    · intro _; rw [hf.no_state]; rfl
  have hb : ∀ k t m nd, (bp k t m nd).degr = m.degr := by
    rcases hbp with rfl | rfl
    · exact rt_degr
    · exact main_degr
  have h := rate_ticks half hundred bp hb ts m nd h0
  intro s
  refine ⟨?_, ?_⟩
  · rcases h.two with h | h
    · exact Or.inl h.2
    · exact Or.inr h.2
  · intro hst
    have hlow := h.low (by
      have e : s.1.stage n = ((s.1.degr n).getD Degr.new).stage := rfl
      rw [e] at hst
      rcases hst with e2 | e2
      · show ((s.1.degr n).getD Degr.new).stage.rank < 2; rw [e2]; decide
      · show ((s.1.degr n).getD Degr.new).stage.rank < 2; rw [e2]; decide)
    rcases h.two with h | h
    · exact h.2
    · rw [hlow] at h; cases h.1

/-- Non-vacuity: reduced, restored, reduced again, restored again. -/
example :
    let m : Mon Nat := { exMon with policy := ⟨1, 2, 1000, 1000, 3⟩ }
    let t := fun ts => (ticks rtBudget (· / 2) 100 0 (m.setBudget 0 8, exNode (some 8)) ts).1.2.rate
    t [bad, bad] = some 100 ∧ t [bad, bad, fine, fine, fine] = some 200 ∧ t [bad, bad, fine, fine, fine, bad, bad] = some 100 ∧
      t [bad, bad, fine, fine, fine, bad, bad, fine, fine, fine] = some 200 := by decide +kernel

/-! ### Probing -/

/-- `k` cycles of the main loop with a node whose health does not change: which of them run it, and the
counter after. -/
def probes (nd : Node R) : Nat → Nat → List Bool × Nat
  | p, 0 => ([], p)
  | p, k + 1 =>
    let r := mainMayTick nd p
    let q := probes nd r.2 k
    (r.1 :: q.1, q.2)

/-- A node that is isolated or unhealthy is run by the main loop exactly in every hundredth cycle, so in
every hundred cycles once: it can show that it has recovered. -/
theorem isolated_probed (nd : Node R) (hs : nd.stopped = false) (hh : nd.health = .unhealthy ∨ nd.health = .isolated) (k : Nat) :
    ∀ p, p + k < 18446744073709551616 →
      probes nd p k = ((List.range k).map (fun i => decide ((p + i + 1) % 100 = 0)), p + k) := by
  induction k with
  | zero => intro p _; rfl
  | succ k ih =>
    intro p hp
    have e : mainMayTick nd p = (decide ((p + 1) % 100 = 0), p + 1) := by
      unfold mainMayTick
      rw [if_neg (by rw [hs]; simp), if_pos hh]
      dsimp only
      have e1 : (p + 1) % 18446744073709551616 = p + 1 := Nat.mod_eq_of_lt (by omega)
      rw [e1]
    unfold probes
    rw [e]
    dsimp only
    rw [ih (p + 1) (by omega), List.range_succ_eq_map]
    simp only [List.map_cons, List.map_map, Nat.add_zero, Prod.mk.injEq, List.cons.injEq, true_and]
    refine ⟨?_, by omega⟩
    apply List.map_congr_left
    intro i _
    simp only [Function.comp]
    congr 2
    omega

/-- Others run in every cycle unless they are stopped. -/
theorem healthy_runs (nd : Node R) (hh : nd.health = .healthy ∨ nd.health = .warning) (p : Nat) :
    mainMayTick nd p = (!nd.stopped, p) := by
  unfold mainMayTick
  cases hs : nd.stopped with
  | true => simp
  | false =>
    rw [if_neg (by simp), if_neg]
    · rfl
    · rcases hh with h | h <;> simp [h]

example : (probes ({ exNode none with health := .isolated } : Node Nat) 7 200).1.countP id = 2 := by decide +kernel

end Horus.Safety.Monitor
