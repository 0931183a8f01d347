import Verif.Safety.Monitor
/-
C55: the degradation ladder.
-/
namespace Horus.Safety.Monitor
open Horus.Ring (upd upd_same upd_ne)

variable {R : Type} (half : R → R) (hundred : R)

/-! ### Specification -/

/-- Rungs of the ladder. -/
def Stage.rank : Stage → Nat
  | .normal => 0
  | .warned => 1
  | .rateReduced => 2
  | .isolated => 3
  | .killed => 4

/-- The rung a number of misses in a row calls for. -/
def Policy.level (p : Policy) (misses : Nat) : Nat :=
  if p.killAfter ≤ misses then 4
  else if p.isolateAfter ≤ misses then 3
  else if p.reduceAfter ≤ misses then 2
  else if p.warnAfter ≤ misses then 1
  else 0

/-- Thresholds in increasing order. -/
def Policy.Ordered (p : Policy) : Prop :=
  p.warnAfter ≤ p.reduceAfter ∧ p.reduceAfter ≤ p.isolateAfter ∧ p.isolateAfter ≤ p.killAfter

/-- What each rung does to the node when it is reached. -/
def rungAction (rate : Option R) : Nat → Action R
  | 1 => .warn
  | 2 => .reduceRate (half (rate.getD hundred))
  | 3 => .isolate
  | 4 => .kill
  | _ => .none

/-- Misses in a row as a real-time thread counts them: a tick within the budget ends the run. -/
def rtCount (budget deadline : Option Nat) (c : Nat) (t : Tick) : Nat :=
  let c := match budget with
    | some b => if b < t.duration then c else 0
    | none => c
  match deadline with
  | some dl => if dl < t.elapsed then c + 1 else c
  | none => c

/-- Misses as the main thread counts them. -/
def mainCount (deadline : Option Nat) (c : Nat) (t : Tick) : Nat :=
  match deadline with
  | some dl => if dl < t.elapsed then c + 1 else c
  | none => c

/-! ### One decision -/

/-- C55: on a miss the node climbs exactly to the rung its misses call for, never down, and the action
taken is the one of the rung reached; nothing happens if it stays. -/
theorem evaluate_exact (p : Policy) (hp : p.Ordered) (d : Degr R) (c : Nat) (rate : Option R) :
    let r := d.evaluate half hundred p c rate
    r.1.stage.rank = max d.stage.rank (p.level c) ∧
    r.2 = if p.level c ≤ d.stage.rank then .none else rungAction half hundred rate (p.level c) := by
  obtain ⟨h1, h2, h3⟩ := hp
  obtain ⟨st, o, rec⟩ := d
  unfold Degr.evaluate Policy.level
  by_cases k1 : p.killAfter ≤ c
  · have a1 : p.isolateAfter ≤ c := by omega
    have a2 : p.reduceAfter ≤ c := by omega
    have a3 : p.warnAfter ≤ c := by omega
    cases st <;> simp [k1, a1, a2, a3, Stage.rank, rungAction]
  · by_cases k2 : p.isolateAfter ≤ c
    · have a2 : p.reduceAfter ≤ c := by omega
      have a3 : p.warnAfter ≤ c := by omega
      cases st <;> simp [k1, k2, a2, a3, Stage.rank, rungAction]
    · by_cases k3 : p.reduceAfter ≤ c
      · have a3 : p.warnAfter ≤ c := by omega
        cases st <;> simp [k1, k2, k3, a3, Stage.rank, rungAction]
      · by_cases k4 : p.warnAfter ≤ c
        · cases st <;> simp [k1, k2, k3, k4, Stage.rank, rungAction]
        · cases st <;> simp [k1, k2, k3, k4, Stage.rank]

/-- The default policy is ordered. -/
theorem default_ordered : Policy.default.Ordered := by unfold Policy.Ordered; decide

/-- C55: a killed node is never revived. -/
theorem killed_final (p : Policy) (d : Degr R) (hd : d.stage = .killed) (c : Nat) (rate : Option R) :
    d.evaluate half hundred p c rate = (d, .none) ∧ d.success p = (d, .none) := by
  obtain ⟨st, o, rec⟩ := d
  simp only at hd
  subst hd
  refine ⟨?_, rfl⟩
  unfold Degr.evaluate; simp

/-- Recovery goes one rung at a time, never upwards, and only the rungs below `killed`. -/
theorem success_exact (p : Policy) (d : Degr R) :
    (d.success p).1.stage.rank ≤ d.stage.rank ∧
    ((d.success p).2 = .deisolate ↔ d.stage = .isolated ∧ p.recoveryTicks ≤ d.recovery + 1) ∧
    (∀ r, (d.success p).2 = .restoreRate r ↔
      d.stage = .rateReduced ∧ p.recoveryTicks ≤ d.recovery + 1 ∧ d.original = some r) ∧
    (d.success p).2 ≠ .kill ∧ (d.success p).2 ≠ .isolate ∧ (d.success p).2 ≠ .warn ∧
    ∀ r, (d.success p).2 ≠ .reduceRate r := by
  obtain ⟨st, o, rec⟩ := d
  unfold Degr.success
  cases st
  · simp
  · simp [Stage.rank]
  · simp only
    split
    · next h => cases o <;> simp [Stage.rank] <;> omega
    · next h => simp; omega
  · simp only
    split
    · next h => simp [Stage.rank]; omega
    · next h => simp; omega
  · simp

/-! ### Counting -/

theorem consecutive_checkBudget (m : Mon R) (n d : Nat) :
    (m.checkBudget n d).1.consecutive n =
      match m.timing n with
      | some t => (match t.budget with | some b => if b < d then t.consecutive else 0 | none => 0)
      | none => 0 := by
  simp only [Mon.consecutive, Mon.checkBudget, upd_same, Option.map_some, Option.getD_some]
  cases m.timing n with
  | none => rfl
  | some t =>
    simp only [Option.getD_some, Timing.recordTick]
    cases t.budget with
    | none => rfl
    | some b => simp only; split <;> rfl

/-- What the budget part of a tick must satisfy: it changes nothing the ladder depends on but the
count. -/
structure BudgetPart (bp : Nat → Tick → Mon R → Node R → Mon R) (count : Option Nat → Nat → Tick → Nat)
    (good : Nat → Mon R → Node R → Prop) : Prop where
  degr : ∀ n t m nd, (bp n t m nd).degr = m.degr
  policy : ∀ n t m nd, (bp n t m nd).policy = m.policy
  count_ : ∀ n t m nd, good n m nd → (bp n t m nd).consecutive n = count nd.budget (m.consecutive n) t
  count_le : ∀ b c t, count b c t ≤ c
  good_ : ∀ n t m nd, good n m nd → good n (bp n t m nd) nd
  /-- the condition speaks of the node's budget in the monitor and in the node only -/
  good_congr : ∀ n (m m' : Mon R) (nd nd' : Node R), (m.timing n).map (·.budget) = (m'.timing n).map (·.budget) →
    nd.budget = nd'.budget → good n m nd → good n m' nd'
  good_miss : ∀ n (m : Mon R) nd, good n m nd → good n (m.recordMiss n 0) nd

/-- The monitor has the node's own budget (scheduler/mod.rs:1349-1351). -/
def sameBudget (n : Nat) (m : Mon R) (nd : Node R) : Prop :=
  nd.budget = none ∨ (m.timing n).map (·.budget) = some nd.budget

theorem timing_checkBudget (m : Mon R) (n d : Nat) :
    ((m.checkBudget n d).1.timing n).map (·.budget) = some (((m.timing n).map (·.budget)).getD none) := by
  simp only [Mon.checkBudget, upd_same, Option.map_some]
  cases m.timing n with
  | none => simp [Timing.recordTick, Timing.new]
  | some t =>
    simp only [Option.getD_some, Option.map_some]
    unfold Timing.recordTick; simp only
    split
    · next b hb => split <;> simp [hb]
    · next hb => simp [hb]

theorem rt_budgetPart : BudgetPart (R := R) rtBudget
    (fun bud c t => match bud with | some b => if b < t.duration then c else 0 | none => c) sameBudget where
  count_le := by intro b c t; cases b <;> simp only <;> [exact Nat.le_refl _; (split <;> omega)]
  degr := by intro n t m nd; unfold rtBudget; split <;> rfl
  policy := by intro n t m nd; unfold rtBudget; split <;> rfl
  count_ := by
    intro n t m nd hg
    unfold rtBudget
    cases hb : nd.budget with
    | none => rfl
    | some b =>
      simp only
      rcases hg with hg | hg
      · rw [hb] at hg; simp at hg
      · rw [consecutive_checkBudget]
        cases ht : m.timing n with
        | none => rw [ht] at hg; simp at hg
        | some tm =>
          rw [ht, hb] at hg
          simp at hg
          simp only [hg, Mon.consecutive, ht, Option.map_some, Option.getD_some]
  good_ := by
    intro n t m nd hg
    unfold rtBudget
    cases hb : nd.budget with
    | none => exact .inl hb
    | some b =>
      rcases hg with hg | hg
      · rw [hb] at hg; simp at hg
      · right; simp only; rw [timing_checkBudget, hg]; rfl
  good_congr := by
    intro n m m' nd nd' h1 h2 hg
    rcases hg with hg | hg
    · exact .inl (h2 ▸ hg)
    · right; rw [← h1, hg, h2]
  good_miss := by
    intro n m nd hg
    rcases hg with hg | hg
    · exact .inl hg
    · right
      simp only [Mon.recordMiss, upd_same, Option.map_some, Timing.recordMiss]
      cases ht : m.timing n with
      | none => rw [ht] at hg; simp at hg
      | some tm => rw [ht] at hg; simpa using hg

theorem main_budgetPart : BudgetPart (R := R) mainBudget (fun _ c _ => c) sameBudget where
  count_le := fun _ _ _ => Nat.le_refl _
  degr := by intro n t m nd; unfold mainBudget; split <;> [(split <;> rfl); rfl]
  policy := by intro n t m nd; unfold mainBudget; split <;> [(split <;> rfl); rfl]
  count_ := by
    intro n t m nd hg
    unfold mainBudget
    cases hb : nd.budget with
    | none => rfl
    | some b =>
      simp only
      split
      · next hlt =>
        rcases hg with hg | hg
        · rw [hb] at hg; simp at hg
        · rw [consecutive_checkBudget]
          cases ht : m.timing n with
          | none => rw [ht] at hg; simp at hg
          | some tm =>
            rw [ht, hb] at hg
            simp at hg
            simp only [hg, Mon.consecutive, ht, Option.map_some, Option.getD_some, if_pos hlt]
      · rfl
  good_ := by
    intro n t m nd hg
    unfold mainBudget
    cases hb : nd.budget with
    | none => exact .inl hb
    | some b =>
      simp only
      split
      · rcases hg with hg | hg
        · rw [hb] at hg; simp at hg
        · right; rw [timing_checkBudget, hg]; rfl
      · exact hg
  good_congr := rt_budgetPart.good_congr
  good_miss := rt_budgetPart.good_miss

/-- The whole count of a tick. -/
def fullCount (count : Option Nat → Nat → Tick → Nat) (budget deadline : Option Nat) (c : Nat) (t : Tick) : Nat :=
  match deadline with
  | some dl => if dl < t.elapsed then count budget c t + 1 else count budget c t
  | none => count budget c t

theorem consecutive_recordMiss (m : Mon R) (n s : Nat) : (m.recordMiss n s).consecutive n = m.consecutive n + 1 := by
  simp only [Mon.consecutive, Mon.recordMiss, upd_same, Option.map_some, Option.getD_some]
  cases m.timing n <;> rfl

theorem apply_fields (nd : Node R) (a : Action R) :
    (nd.apply a).budget = nd.budget ∧ (nd.apply a).deadline = nd.deadline ∧
    ((nd.apply a).stopped = true ↔ nd.stopped = true ∨ a = .kill) := by
  cases a <;> simp [Node.apply]

/-- Stage of the node, `normal` if the monitor has none. -/
def Mon.stage (m : Mon R) (n : Nat) : Stage := ((m.degr n).getD Degr.new).stage

section tick
variable {bp : Nat → Tick → Mon R → Node R → Mon R} {count : Option Nat → Nat → Tick → Nat}
  {good : Nat → Mon R → Node R → Prop}

/-- Everything one tick does, in terms of the count. -/
theorem tick_spec (h : BudgetPart bp count good) (n : Nat) (m : Mon R) (nd : Node R) (t : Tick) (hg : good n m nd) :
    let r := tickWith bp half hundred n (m, nd) t
    let missed := ∃ dl, nd.deadline = some dl ∧ dl < t.elapsed
    r.1.1.consecutive n = fullCount count nd.budget nd.deadline (m.consecutive n) t ∧
    good n r.1.1 r.1.2 ∧ r.1.1.policy = m.policy ∧ r.1.2.budget = nd.budget ∧ r.1.2.deadline = nd.deadline ∧
    ((missed ∧
      let e := ((m.degr n).getD Degr.new).evaluate half hundred m.policy (fullCount count nd.budget nd.deadline (m.consecutive n) t) nd.rate
      let s := if t.ok then e.1.success m.policy else (e.1, .none)
      r.1.1.degr n = some s.1 ∧ r.1.2 = (nd.apply e.2).apply s.2 ∧
      r.2 = e.2 :: if t.ok then [s.2] else []) ∨
     (¬ missed ∧
      let s := if t.ok then ((m.degr n).getD Degr.new).success m.policy else ((m.degr n).getD Degr.new, .none)
      (r.1.1.degr n).getD Degr.new = s.1 ∧ r.1.2 = nd.apply s.2 ∧ r.2 = if t.ok then [s.2] else [])) := by
  have hsucc : ∀ (m : Mon R) (nd : Node R), successPart n t m nd =
      if t.ok then ((m.success n).1, nd.apply (m.success n).2, [(m.success n).2]) else (m, nd, []) := fun _ _ => rfl
  have hs1 : ∀ m : Mon R, (m.success n).1.timing = m.timing ∧ (m.success n).1.policy = m.policy ∧
      ((m.success n).1.degr n).getD Degr.new = (((m.degr n).getD Degr.new).success m.policy).1 ∧
      (m.success n).2 = (((m.degr n).getD Degr.new).success m.policy).2 ∧
      (∀ d, m.degr n = some d → (m.success n).1.degr n = some (d.success m.policy).1) := by
    intro m
    unfold Mon.success
    cases hd : m.degr n with
    | none => simp [Degr.new, Degr.success, hd]
    | some d => simp
  have hcong : ∀ (m m' : Mon R) (nd nd' : Node R), m.timing = m'.timing → nd.budget = nd'.budget → good n m nd → good n m' nd' := by
    intro m m' nd nd' h1 h2 h3
    exact h.good_congr n m m' nd nd' (by rw [h1]) h2 h3
  intro r missed
  have hr : r = tickWith bp half hundred n (m, nd) t := rfl
  unfold tickWith at hr
  simp only at hr
  have hb := h.count_ n t m nd hg
  have hgb := h.good_ n t m nd hg
  have hdb := h.degr n t m nd
  have hpb := h.policy n t m nd
  generalize bp n t m nd = m1 at hr hb hgb hdb hpb
  unfold deadlinePart at hr
  have hcases : nd.deadline = none ∨ ∃ dl, nd.deadline = some dl := by cases nd.deadline <;> simp
  rcases hcases with hdl | ⟨dl, hdl⟩
  · have hnm : ¬ missed := by rintro ⟨dl, e, _⟩; rw [hdl] at e; simp at e
    simp only [hdl, hsucc] at hr
    have hfc : fullCount count nd.budget nd.deadline (m.consecutive n) t = m1.consecutive n := by simp [fullCount, hdl, hb]
    by_cases hok : t.ok = true
    · simp only [hok, if_true, List.nil_append] at hr
      obtain ⟨s1, s2, s3, s4, _⟩ := hs1 m1
      obtain ⟨f1, f2, _⟩ := apply_fields nd (m1.success n).2
      rw [hr]
      refine ⟨?_, ?_, ?_, f1, f2, .inr ⟨hnm, ?_⟩⟩
      · rw [hfc]; simp only [Mon.consecutive, s1]
      · exact hcong m1 _ nd _ s1.symm f1.symm hgb
      · show (m1.success n).1.policy = _; rw [s2, hpb]
      · simp only [hok, if_true]
        rw [s3, s4, hdb, hpb]
        exact ⟨rfl, rfl, rfl⟩
    · simp only [hok] at hr
      rw [hr]
      refine ⟨hfc.symm, hgb, hpb, rfl, rfl, .inr ⟨hnm, ?_⟩⟩
      simp [hok, hdb, Node.apply]
  · simp only [hdl, hsucc] at hr
    by_cases hlt : dl < t.elapsed
    · have hm : missed := ⟨dl, hdl, hlt⟩
      simp only [gt_iff_lt, hlt, if_true] at hr
      have hfc : fullCount count nd.budget nd.deadline (m.consecutive n) t = m1.consecutive n + 1 := by simp [fullCount, hdl, hlt, hb]
      have hcm : (m1.recordMiss n 0).consecutive n = m1.consecutive n + 1 := consecutive_recordMiss m1 n 0
      rw [hcm] at hr
      have hed : ((m1.recordMiss n 0).evaluate half hundred n (m1.consecutive n + 1) nd.rate).1.degr n =
          some (((m.degr n).getD Degr.new).evaluate half hundred m.policy (m1.consecutive n + 1) nd.rate).1 := by
        simp only [Mon.evaluate, upd_same, Mon.recordMiss, hdb, hpb]
      have hea : ((m1.recordMiss n 0).evaluate half hundred n (m1.consecutive n + 1) nd.rate).2 =
          (((m.degr n).getD Degr.new).evaluate half hundred m.policy (m1.consecutive n + 1) nd.rate).2 := by
        simp only [Mon.evaluate, Mon.recordMiss, hdb, hpb]
      have het : ((m1.recordMiss n 0).evaluate half hundred n (m1.consecutive n + 1) nd.rate).1.timing = (m1.recordMiss n 0).timing := rfl
      have hep : ((m1.recordMiss n 0).evaluate half hundred n (m1.consecutive n + 1) nd.rate).1.policy = m.policy := hpb
      generalize ((m1.recordMiss n 0).evaluate half hundred n (m1.consecutive n + 1) nd.rate) = E at hr hed hea het hep
      have hcE : E.1.consecutive n = m1.consecutive n + 1 := by rw [← hcm]; simp only [Mon.consecutive, het]
      have hgE : good n E.1 nd := hcong _ _ nd nd het.symm rfl (h.good_miss n m1 nd hgb)
      obtain ⟨f1, f2, _⟩ := apply_fields nd E.2
      by_cases hok : t.ok = true
      · simp only [hok, if_true] at hr
        obtain ⟨s1, s2, s3, s4, s5⟩ := hs1 E.1
        obtain ⟨g1, g2, _⟩ := apply_fields (nd.apply E.2) (E.1.success n).2
        rw [hr]
        refine ⟨?_, ?_, ?_, by rw [g1, f1], by rw [g2, f2], .inl ⟨hm, ?_⟩⟩
        · rw [hfc, ← hcE]; simp only [Mon.consecutive, s1]
        · exact hcong E.1 _ nd _ s1.symm (by rw [g1, f1]) hgE
        · show (E.1.success n).1.policy = _; rw [s2, hep]
        · simp only [hok, if_true, hfc]
          rw [s5 _ hed, s4, hed, hep, hea]
          exact ⟨rfl, rfl, rfl⟩
      · simp only [hok] at hr
        rw [hr]
        refine ⟨by rw [hfc]; exact hcE, hcong E.1 _ nd _ rfl f1.symm hgE, hep, f1, f2, .inl ⟨hm, ?_⟩⟩
        simp [hok, hfc, hed, hea, Node.apply]
    · have hnm : ¬ missed := by
        rintro ⟨dl', e, h'⟩; rw [hdl] at e; injection e with e; subst e; exact hlt h'
      simp only [gt_iff_lt, hlt, if_false] at hr
      have hfc : fullCount count nd.budget nd.deadline (m.consecutive n) t = m1.consecutive n := by simp [fullCount, hdl, hlt, hb]
      by_cases hok : t.ok = true
      · simp only [hok, if_true, List.nil_append] at hr
        obtain ⟨s1, s2, s3, s4, _⟩ := hs1 m1
        obtain ⟨f1, f2, _⟩ := apply_fields nd (m1.success n).2
        rw [hr]
        refine ⟨?_, ?_, ?_, f1, f2, .inr ⟨hnm, ?_⟩⟩
        · rw [hfc]; simp only [Mon.consecutive, s1]
        · exact hcong m1 _ nd _ s1.symm f1.symm hgb
        · show (m1.success n).1.policy = _; rw [s2, hpb]
        · simp only [hok, if_true]
          rw [s3, s4, hdb, hpb]
          exact ⟨rfl, rfl, rfl⟩
      · simp only [hok] at hr
        rw [hr]
        refine ⟨hfc.symm, hgb, hpb, rfl, rfl, .inr ⟨hnm, ?_⟩⟩
        simp [hok, hdb, Node.apply]

/-- The state before the node has missed enough to be killed. -/
structure Alive (good : Nat → Mon R → Node R → Prop) (n : Nat) (m : Mon R) (nd : Node R) (c : Nat) : Prop where
  good_ : good n m nd
  count_ : m.consecutive n = c
  stage_ : m.stage n ≠ .killed
  running : nd.stopped = false
  below : c < m.policy.killAfter

theorem evaluate_kill (p : Policy) (d : Degr R) (c : Nat) (rate : Option R) (hd : d.stage ≠ .killed) :
    (p.killAfter ≤ c → d.evaluate half hundred p c rate = ({ d with stage := .killed, recovery := 0 }, .kill)) ∧
    (c < p.killAfter → (d.evaluate half hundred p c rate).1.stage ≠ .killed ∧
      (d.evaluate half hundred p c rate).2 ≠ .kill) := by
  constructor
  · intro h; unfold Degr.evaluate; simp [h, hd]
  · intro h
    have h' : ¬ p.killAfter ≤ c := by omega
    unfold Degr.evaluate
    simp only [ge_iff_le, h', false_and, if_false]
    split
    · simp
    · split
      · simp
      · split
        · simp
        · simp [hd]

theorem success_not_killed (p : Policy) (d : Degr R) (hd : d.stage ≠ .killed) :
    (d.success p).1.stage ≠ .killed ∧ (d.success p).2 ≠ .kill := by
  obtain ⟨st, o, rec⟩ := d
  unfold Degr.success
  cases st
  · simp
  · simp
  · simp only; split
    · cases o <;> simp
    · simp
  · simp only; split <;> simp
  · simp at hd

theorem ticks_stopped (bp : Nat → Tick → Mon R → Node R → Mon R) (n : Nat) (ts : List Tick) :
    ∀ (s : Mon R × Node R), s.2.stopped = true → ticks bp half hundred n s ts = (s, []) := by
  induction ts with
  | nil => intro s _; rfl
  | cons t ts ih => intro s hs; rw [ticks, if_pos hs]; exact ih s hs

/-- One tick of a node that is alive. -/
theorem tick_alive (h : BudgetPart bp count good) (n : Nat) (m : Mon R) (nd : Node R) (c : Nat) (t : Tick)
    (ha : Alive good n m nd c) :
    let r := tickWith bp half hundred n (m, nd) t
    let c' := fullCount count nd.budget nd.deadline c t
    (m.policy.killAfter ≤ c' → r.1.2.stopped = true ∧ r.1.1.stage n = .killed) ∧
    (c' < m.policy.killAfter → Alive good n r.1.1 r.1.2 c') ∧
    r.1.1.policy = m.policy ∧ r.1.2.budget = nd.budget ∧ r.1.2.deadline = nd.deadline := by
  intro r c'
  obtain ⟨t1, t2, t3, t4, t5, t6⟩ := tick_spec half hundred h n m nd t ha.good_
  have hc : fullCount count nd.budget nd.deadline (m.consecutive n) t = c' := by rw [ha.count_]
  rw [hc] at t1
  have hst := ha.stage_
  refine ⟨?_, ?_, t3, t4, t5⟩
  · intro hk
    rcases t6 with ⟨hm, t6⟩ | ⟨hm, t6⟩
    · rw [hc] at t6
      simp only at t6
      rw [(evaluate_kill half hundred m.policy _ c' nd.rate hst).1 hk] at t6
      obtain ⟨u1, u2, _⟩ := t6
      constructor
      · show (tickWith bp half hundred n (m, nd) t).1.2.stopped = true
        rw [u2]
        rw [(apply_fields _ _).2.2]; left; simp [Node.apply]
      · show ((tickWith bp half hundred n (m, nd) t).1.1.stage n) = .killed
        unfold Mon.stage
        rw [u1]
        by_cases hok : t.ok = true <;> simp [hok, Degr.success]
    · exfalso
      have : c' ≤ c := by
        show fullCount count nd.budget nd.deadline c t ≤ c
        unfold fullCount
        cases hdl : nd.deadline with
        | none => exact h.count_le _ _ _
        | some dl =>
          have : ¬ dl < t.elapsed := fun h => hm ⟨dl, hdl, h⟩
          simp only [this, if_false]
          exact h.count_le _ _ _
      have := ha.below
      omega
  · intro hk
    refine ⟨t2, t1, ?_, ?_, by rw [t3]; exact hk⟩
    · rcases t6 with ⟨hm, t6⟩ | ⟨hm, t6⟩
      · rw [hc] at t6
        simp only at t6
        have e := (evaluate_kill half hundred m.policy _ c' nd.rate hst).2 hk
        unfold Mon.stage
        rw [t6.1]
        simp only [Option.getD_some]
        split
        · exact (success_not_killed m.policy _ e.1).1
        · exact e.1
      · unfold Mon.stage
        simp only at t6
        rw [t6.1]
        split
        · exact (success_not_killed m.policy _ hst).1
        · exact hst
    · rw [← Bool.not_eq_true]
      intro hs
      rcases t6 with ⟨hm, t6⟩ | ⟨hm, t6⟩
      · rw [hc] at t6
        simp only at t6
        have e := (evaluate_kill half hundred m.policy _ c' nd.rate hst).2 hk
        rw [t6.2.1, (apply_fields _ _).2.2, (apply_fields _ _).2.2] at hs
        rcases hs with (hs | hs) | hs
        · rw [ha.running] at hs; simp at hs
        · exact e.2 hs
        · revert hs
          split
          · exact (success_not_killed m.policy _ e.1).2
          · simp
      · simp only at t6
        rw [t6.2.1, (apply_fields _ _).2.2] at hs
        rcases hs with hs | hs
        · rw [ha.running] at hs; simp at hs
        · revert hs
          split
          · exact (success_not_killed m.policy _ hst).2
          · simp

/-- A node is stopped exactly when its count has reached the kill threshold at some tick. -/
theorem stopped_iff_count (h : BudgetPart bp count good) (n : Nat) (ts : List Tick) :
    ∀ (m : Mon R) (nd : Node R) (c : Nat), Alive good n m nd c →
    let r := ticks bp half hundred n (m, nd) ts
    (r.1.2.stopped = true ↔
      ∃ pre, pre <+: ts ∧ m.policy.killAfter ≤ pre.foldl (fullCount count nd.budget nd.deadline) c) ∧
    (r.1.2.stopped = true ↔ r.1.1.stage n = .killed) ∧
    (r.1.2.stopped = false → r.1.1.consecutive n = ts.foldl (fullCount count nd.budget nd.deadline) c) := by
  induction ts with
  | nil =>
    intro m nd c ha r
    have hr : r = ((m, nd), []) := rfl
    rw [hr]
    refine ⟨?_, ?_, fun _ => ha.count_⟩
    · constructor
      · intro hs; rw [show ((m, nd), ([] : List (Action R))).1.2.stopped = nd.stopped from rfl, ha.running] at hs; simp at hs
      · rintro ⟨pre, hp, hk⟩
        have : pre = [] := by simpa using hp
        subst this
        have := ha.below
        simp only [List.foldl_nil] at hk
        omega
    · constructor
      · intro hs; rw [show ((m, nd), ([] : List (Action R))).1.2.stopped = nd.stopped from rfl, ha.running] at hs; simp at hs
      · intro hs; exact absurd hs ha.stage_
  | cons t ts ih =>
    intro m nd c ha r
    obtain ⟨a1, a2, a3, a4, a5⟩ := tick_alive half hundred h n m nd c t ha
    have hr : r = ((ticks bp half hundred n (tickWith bp half hundred n (m, nd) t).1 ts).1,
        (tickWith bp half hundred n (m, nd) t).2 ++ (ticks bp half hundred n (tickWith bp half hundred n (m, nd) t).1 ts).2) := by
      show ticks bp half hundred n (m, nd) (t :: ts) = _
      rw [ticks, if_neg (by rw [ha.running]; simp)]
    by_cases hk : m.policy.killAfter ≤ fullCount count nd.budget nd.deadline c t
    · obtain ⟨s1, s2⟩ := a1 hk
      have hr1 : r.1 = (tickWith bp half hundred n (m, nd) t).1 := by rw [hr, ticks_stopped half hundred bp n ts _ s1]
      rw [hr1]
      refine ⟨⟨fun _ => ⟨[t], ⟨ts, rfl⟩, hk⟩, fun _ => s1⟩, ⟨fun _ => s2, fun _ => s1⟩, fun hs => ?_⟩
      rw [s1] at hs; simp at hs
    · have ha' := a2 (by omega)
      obtain ⟨i1, i2, i3⟩ := ih _ _ _ ha'
      rw [a4, a5, a3] at i1
      rw [a4, a5] at i3
      rw [hr]
      refine ⟨?_, i2, i3⟩
      refine i1.trans ?_
      constructor
      · rintro ⟨pre, hp, hkk⟩
        exact ⟨t :: pre, (List.prefix_cons_inj t).2 hp, hkk⟩
      · rintro ⟨pre, hp, hkk⟩
        cases pre with
        | nil => have := ha.below; simp only [List.foldl_nil] at hkk; omega
        | cons x pre =>
          obtain ⟨rfl, hp'⟩ := List.cons_prefix_cons.1 hp
          exact ⟨pre, hp', hkk⟩

end tick

/-! ### Histories of a node -/

/-- A node that has just been registered, with its budget in the monitor. -/
structure Fresh (n : Nat) (m : Mon R) (nd : Node R) : Prop where
  budget_known : sameBudget n m nd
  no_misses : m.consecutive n = 0
  no_state : m.degr n = none
  running : nd.stopped = false

theorem Fresh.alive {n : Nat} {m : Mon R} {nd : Node R} (h : Fresh n m nd) (hk : 0 < m.policy.killAfter) :
    Alive sameBudget n m nd 0 :=
  ⟨h.budget_known, h.no_misses, by simp [Mon.stage, h.no_state, Degr.new], h.running, hk⟩

/-- C55 (real-time thread): the node is stopped exactly when the misses counted since its last tick
within budget reach the kill threshold. -/
theorem rt_killed_iff (n : Nat) (m : Mon R) (nd : Node R) (hf : Fresh n m nd) (hk : 0 < m.policy.killAfter)
    (ts : List Tick) :
    (ticks rtBudget half hundred n (m, nd) ts).1.2.stopped = true ↔
      ∃ pre, pre <+: ts ∧ m.policy.killAfter ≤ pre.foldl (rtCount nd.budget nd.deadline) 0 := by
  have e : fullCount (fun bud c t => match bud with | some b => if b < t.duration then c else 0 | none => c)
      nd.budget nd.deadline = rtCount nd.budget nd.deadline := by
    funext c t
    unfold fullCount rtCount
    cases nd.deadline <;> cases nd.budget <;> rfl
  have := (stopped_iff_count half hundred rt_budgetPart n ts m nd 0 (hf.alive hk)).1
  rw [e] at this
  exact this

/-- Ticks that missed the deadline. -/
def missed (deadline : Option Nat) (t : Tick) : Bool :=
  match deadline with
  | some dl => decide (dl < t.elapsed)
  | none => false

theorem mainCount_eq (deadline : Option Nat) (ts : List Tick) :
    ∀ c, ts.foldl (mainCount deadline) c = c + ts.countP (missed deadline) := by
  induction ts with
  | nil => intro c; rfl
  | cons t ts ih =>
    intro c
    rw [List.foldl_cons, ih, List.countP_cons]
    unfold mainCount missed
    cases deadline with
    | none => simp
    | some dl => by_cases h : dl < t.elapsed <;> simp [h] <;> omega

theorem countP_prefix (f : Tick → Bool) {pre ts : List Tick} (h : pre <+: ts) : pre.countP f ≤ ts.countP f :=
  h.sublist.countP_le

/-- Disagreement with C55 (main thread): there the misses counted are all the misses the node ever had,
however far apart and however many good ticks lie between them. -/
theorem main_killed_iff_total (n : Nat) (m : Mon R) (nd : Node R) (hf : Fresh n m nd) (hk : 0 < m.policy.killAfter)
    (ts : List Tick) :
    (ticks mainBudget half hundred n (m, nd) ts).1.2.stopped = true ↔
      m.policy.killAfter ≤ ts.countP (missed nd.deadline) := by
  have e : fullCount (fun _ c _ => c) nd.budget nd.deadline = mainCount nd.deadline := by
    funext c t
    unfold fullCount mainCount
    cases nd.deadline <;> rfl
  have := (stopped_iff_count half hundred main_budgetPart n ts m nd 0 (hf.alive hk)).1
  rw [e] at this
  refine this.trans ⟨?_, fun h => ⟨ts, List.prefix_refl _, by rw [mainCount_eq]; omega⟩⟩
  rintro ⟨pre, hp, h⟩
  rw [mainCount_eq] at h
  have := countP_prefix (missed nd.deadline) hp
  omega

/-- The same on a real-time thread for a node without a budget. -/
theorem rt_without_budget_total (n : Nat) (m : Mon R) (nd : Node R) (hf : Fresh n m nd) (hk : 0 < m.policy.killAfter)
    (hb : nd.budget = none) (ts : List Tick) :
    (ticks rtBudget half hundred n (m, nd) ts).1.2.stopped = true ↔
      m.policy.killAfter ≤ ts.countP (missed nd.deadline) := by
  have e : rtCount none nd.deadline = mainCount nd.deadline := by
    funext c t; unfold rtCount mainCount; cases nd.deadline <;> rfl
  rw [rt_killed_iff half hundred n m nd hf hk ts, hb, e]
  refine ⟨?_, fun h => ⟨ts, List.prefix_refl _, by rw [mainCount_eq]; omega⟩⟩
  rintro ⟨pre, hp, h⟩
  rw [mainCount_eq] at h
  have := countP_prefix (missed nd.deadline) hp
  omega

/-- Disagreement with C55 (real-time thread, deadline shorter than the budget or a slow check): misses of
ticks that stay within the budget are never counted together, so the node is never stopped. -/
theorem within_budget_never_killed (n : Nat) (m : Mon R) (nd : Node R) (hf : Fresh n m nd)
    (hk : 1 < m.policy.killAfter) (b : Nat) (hb : nd.budget = some b) (ts : List Tick)
    (ht : ∀ t ∈ ts, t.duration ≤ b) :
    (ticks rtBudget half hundred n (m, nd) ts).1.2.stopped = false := by
  rw [← Bool.not_eq_true, rt_killed_iff half hundred n m nd hf (by omega) ts]
  rintro ⟨pre, hp, h⟩
  have : ∀ (l : List Tick), (∀ t ∈ l, t.duration ≤ b) → ∀ c, c ≤ 1 → l.foldl (rtCount (some b) nd.deadline) c ≤ 1 := by
    intro l
    induction l with
    | nil => intro _ c hc; exact hc
    | cons t l ih =>
      intro hl c hc
      apply ih fun t ht => hl t (List.mem_cons_of_mem _ ht)
      have h1 := hl t List.mem_cons_self
      unfold rtCount
      have h2 : ¬ b < t.duration := by omega
      simp only [h2, if_false]
      cases nd.deadline with
      | none => simp
      | some dl => simp only; split <;> omega
  rw [hb] at h
  have := this pre (fun t h => ht t (hp.subset h)) 0 (by omega)
  omega

/-- C55 as stated holds on a real-time thread whose budget separates the ticks: if every tick is either
within budget and deadline or over both, the node is stopped exactly by `killAfter` misses in a row. -/
def run (deadline : Option Nat) (c : Nat) (t : Tick) : Nat := if missed deadline t then c + 1 else 0

theorem rt_killed_by_run_partial (n : Nat) (m : Mon R) (nd : Node R) (hf : Fresh n m nd) (hk : 0 < m.policy.killAfter)
    (b : Nat) (hb : nd.budget = some b) (ts : List Tick)
    (hsep : ∀ t ∈ ts, missed nd.deadline t = decide (b < t.duration)) :
    (ticks rtBudget half hundred n (m, nd) ts).1.2.stopped = true ↔
      ∃ pre, pre <+: ts ∧ m.policy.killAfter ≤ pre.foldl (run nd.deadline) 0 := by
  rw [rt_killed_iff half hundred n m nd hf hk ts, hb]
  have key : ∀ (l : List Tick), (∀ t ∈ l, missed nd.deadline t = decide (b < t.duration)) → ∀ c,
      l.foldl (rtCount (some b) nd.deadline) c = l.foldl (run nd.deadline) c := by
    intro l
    induction l with
    | nil => intro _ c; rfl
    | cons t l ih =>
      intro hl c
      have h1 := hl t List.mem_cons_self
      rw [List.foldl_cons, List.foldl_cons, ← ih (fun t ht => hl t (List.mem_cons_of_mem _ ht))]
      congr 1
      unfold rtCount run
      unfold missed at h1 ⊢
      cases hdl : nd.deadline with
      | none =>
        have : ¬ b < t.duration := by rw [hdl] at h1; simpa using h1.symm
        simp [this]
      | some dl =>
        replace h1 : dl < t.elapsed ↔ b < t.duration := by rw [hdl] at h1; simpa using h1
        by_cases hh : dl < t.elapsed
        · simp [hh, h1.1 hh]
        · have : ¬ b < t.duration := fun h => hh (h1.2 h)
          simp [hh, this]
  constructor
  · rintro ⟨pre, hp, h⟩; exact ⟨pre, hp, by rw [← key pre fun t ht => hsep t (hp.subset ht)]; exact h⟩
  · rintro ⟨pre, hp, h⟩; exact ⟨pre, hp, by rw [key pre fun t ht => hsep t (hp.subset ht)]; exact h⟩

/-! ### Recovery -/

/-- Ticks without a miss. -/
def Degr.goodRun (p : Policy) (d : Degr R) : Nat → Degr R
  | 0 => d
  | k + 1 => ((d.goodRun p k).success p).1

/-- C55: a node whose rate was reduced stays reduced for `recoveryTicks - 1` clean ticks, and at the
`recoveryTicks`-th gets its original rate back. -/
theorem recovery_after_good_run (p : Policy) (hp : 0 < p.recoveryTicks) (r : R) (k : Nat) :
    let d : Degr R := ⟨.rateReduced, some r, 0⟩
    (k < p.recoveryTicks → (d.goodRun p k).stage = .rateReduced ∧ (d.goodRun p k).recovery = k ∧ (d.goodRun p k).original = some r) ∧
    ((d.goodRun p (p.recoveryTicks - 1)).success p).2 = .restoreRate r ∧
    (d.goodRun p p.recoveryTicks).stage = .normal := by
  intro d
  have key : ∀ k, k < p.recoveryTicks → d.goodRun p k = ⟨.rateReduced, some r, k⟩ := by
    intro k
    induction k with
    | zero => intro _; rfl
    | succ k ih =>
      intro hk
      have hn : ¬ p.recoveryTicks ≤ k + 1 := by omega
      rw [Degr.goodRun, ih (by omega)]
      simp [Degr.success, hn]
  refine ⟨fun hk => by rw [key k hk]; exact ⟨rfl, rfl, rfl⟩, ?_, ?_⟩
  · rw [key _ (by omega)]
    have : p.recoveryTicks - 1 + 1 = p.recoveryTicks := by omega
    simp [Degr.success, this]
  · have : p.recoveryTicks = p.recoveryTicks - 1 + 1 := by omega
    have hle : p.recoveryTicks ≤ p.recoveryTicks - 1 + 1 := by omega
    rw [this, Degr.goodRun, key _ (by omega)]
    simp [Degr.success, hle]

/-- C55: an isolated node becomes rate-reduced again after `recoveryTicks` clean ticks, not before. -/
theorem isolation_ends_after_good_run (p : Policy) (hp : 0 < p.recoveryTicks) (o : Option R) (k : Nat) :
    let d : Degr R := ⟨.isolated, o, 0⟩
    (k < p.recoveryTicks → (d.goodRun p k).stage = .isolated) ∧
    ((d.goodRun p (p.recoveryTicks - 1)).success p).2 = .deisolate ∧
    d.goodRun p p.recoveryTicks = ⟨.rateReduced, o, 0⟩ := by
  intro d
  have key : ∀ k, k < p.recoveryTicks → d.goodRun p k = ⟨.isolated, o, k⟩ := by
    intro k
    induction k with
    | zero => intro _; rfl
    | succ k ih =>
      intro hk
      have hn : ¬ p.recoveryTicks ≤ k + 1 := by omega
      rw [Degr.goodRun, ih (by omega)]
      simp [Degr.success, hn]
  refine ⟨fun hk => by rw [key k hk], ?_, ?_⟩
  · rw [key _ (by omega)]
    have : p.recoveryTicks - 1 + 1 = p.recoveryTicks := by omega
    simp [Degr.success, this]
  · have : p.recoveryTicks = p.recoveryTicks - 1 + 1 := by omega
    have hle : p.recoveryTicks ≤ p.recoveryTicks - 1 + 1 := by omega
    rw [this, Degr.goodRun, key _ (by omega)]
    simp [Degr.success, hle]

/-! ### Witnesses -/

/-- A monitor as a scheduler makes it, and a node with deadline 10 and no budget. -/
def exMon : Mon Nat := Mon.new 1000
/-- A node with deadline 10 and the given budget. -/
def exNode (budget : Option Nat) : Node Nat := ⟨budget, some 10, some 200, .healthy, false⟩
/-- A tick that overruns. -/
def bad : Tick := ⟨20, 20, true⟩
/-- A tick in time. -/
def fine : Tick := ⟨5, 5, true⟩
/-- The actions of a history, without the ticks that took none. -/
def actions (bp : Nat → Tick → Mon Nat → Node Nat → Mon Nat) (m : Mon Nat) (nd : Node Nat) (ts : List Tick) :
    List (Action Nat) :=
  (ticks bp (· / 2) 100 0 (m, nd) ts).2.filter (· ≠ .none)

example : Fresh 0 exMon (exNode none) := ⟨.inl rfl, rfl, rfl, rfl⟩
example : Fresh 0 (exMon.setBudget 0 8) (exNode (some 8)) := ⟨.inr rfl, rfl, rfl, rfl⟩

/-- Twenty misses in a row on a real-time thread climb the whole ladder. The second warning is the
disagreement below. -/
example : actions rtBudget (exMon.setBudget 0 8) (exNode (some 8)) (List.replicate 20 bad) =
    [.warn, .warn, .reduceRate 100, .isolate, .kill] := by decide +kernel

/-- A good tick ends the run on a real-time thread with a budget. -/
example : actions rtBudget (exMon.setBudget 0 8) (exNode (some 8))
    ((List.replicate 12 ([bad, bad, fine])).flatten) = [] := by decide +kernel

/-- Disagreement with C55: on the main thread twenty misses with ten good ticks after each still stop
the node. -/
theorem scattered_misses_kill : (ticks mainBudget (· / 2) 100 0 (exMon, exNode none)
    ((List.replicate 20 (bad :: List.replicate 10 fine)).flatten)).1.2.stopped = true := by decide +kernel

/-- Disagreement with C55: a tick that missed its deadline counts as a clean tick for recovery, so a node
that misses every deadline is warned twice. -/
theorem missed_tick_counts_as_recovery :
    actions mainBudget exMon (exNode none) (List.replicate 4 bad) = [.warn, .warn] := by decide +kernel

/-- Disagreement with C55: with a kill threshold far away, a node that misses every single deadline gets
its full rate back. -/
theorem recovers_while_missing :
    let m : Mon Nat := { exMon with policy := ⟨1, 2, 1000, 1000, 3⟩ }
    actions mainBudget m (exNode none) (List.replicate 4 bad) =
      [.warn, .reduceRate 100, .restoreRate 200] := by decide +kernel

/-- A node without a rate is reduced to half of the default and never gets its unlimited rate back. -/
theorem rateless_node_stays_reduced :
    let nd : Node Nat := { exNode none with rate := none }
    (ticks mainBudget (· / 2) 100 0 (exMon, nd) (List.replicate 5 bad ++ List.replicate 200 fine)).1.2.rate = some 50 := by
  decide +kernel

end Horus.Safety.Monitor
