import Verif.Time.Clock
import Mathlib.Data.List.Induction
import Mathlib.Tactic.SplitIfs
/-
Model of the node builder: `scheduler.add(node).order(..).rate(..)….build()`.

Source: horus_core/src/scheduling/node_builder.rs:163-184 (`NodeRegistration::new`), 201-493 (setters),
502-551 (`finalize`), 559-761 (`validate`), 785-988 (`NodeBuilder`), and
horus_core/src/scheduling/scheduler/mod.rs:1726-1855 (`add_configured_internal`).

Durations are nanoseconds. A rate is an exact rational (an `f64` in the source); `hz()` refuses values
that are not finite and positive, so the not-finite half of the check at node_builder.rs:565 has no
counterpart. Derived budgets and deadlines are those of Verif/Time/Clock.lean. Log lines are left out.
-/
namespace Horus.Builder
open Horus.Clocks (budgetDefault deadlineDefault period)

/-- `ExecutionClass` (scheduling/types.rs, used at node_builder.rs:174, 222, 243, 264). -/
inductive Cls where
  | bestEffort
  | rt
  | compute
  | event (topic : String)
  | asyncIo
deriving DecidableEq, Inhabited

/-- `NodeRegistration` (node_builder.rs:110-152). The failure, miss and budget policies are opaque
numbers; the node itself is left out. `source_freq` and `rate_hz` are always set together
(node_builder.rs:316-320) and are one field here. -/
structure Reg where
  order : Nat
  rate : Option Rat
  isRt : Bool
  budget : Option Nat
  deadline : Option Nat
  deadlineAuto : Bool
  cls : Cls
  noAlloc : Bool
  schedDeadline : Bool
  fresh : List (String × Nat)
  prio : Option Int
  core : Option Nat
  watchdog : Option Nat
  missPolicy : Nat
  budgetPolicy : Nat
  failurePolicy : Option Nat
deriving Inhabited

/-- `NodeRegistration::new` (node_builder.rs:163-184). -/
def Reg.new : Reg := { order := 0, rate := none, isRt := false, budget := none, deadline := none, deadlineAuto := false, cls := .bestEffort, noAlloc := false, schedDeadline := false, fresh := [], prio := none, core := none, watchdog := none, missPolicy := 0, budgetPolicy := 0, failurePolicy := none }

/-- One builder call (node_builder.rs:800-954). -/
inductive Call where
  | order (n : Nat)
  | rate (hz : Rat)
  | budget (ns : Nat)
  | deadline (ns : Nat)
  | compute
  | on (topic : String)
  | asyncIo
  | noAlloc
  | deadlineScheduler
  | subscribe (topic : String) (timeout : Nat)
  | priority (p : Int)
  | core (c : Nat)
  | watchdog (ns : Nat)
  | onMiss (p : Nat)
  | budgetPolicy (p : Nat)
  | failurePolicy (p : Nat)

/-- The setters (node_builder.rs:201-493, 930-948). -/
def apply (r : Reg) : Call → Reg
  | .order n => { r with order := n }
  | .rate hz => { r with rate := some hz }
  | .budget b => { r with budget := some b }
  | .deadline d => { r with deadline := some d }
  | .compute => { r with cls := .compute }
  | .on t => { r with cls := .event t }
  | .asyncIo => { r with cls := .asyncIo }
  | .noAlloc => { r with noAlloc := true }
  | .deadlineScheduler => { r with schedDeadline := true }
  | .subscribe t d => { r with fresh := r.fresh ++ [(t, d)] }
  | .priority p => { r with prio := some p }
  | .core c => { r with core := some c }
  | .watchdog d => { r with watchdog := some d }
  | .onMiss p => { r with missPolicy := p }
  | .budgetPolicy p => { r with budgetPolicy := p }
  | .failurePolicy p => { r with failurePolicy := some p }

/-- Auto-derivation from the rate (node_builder.rs:506-528). -/
def fromRate (r : Reg) : Reg :=
  match r.rate with
  | none => r
  | some hz =>
    let r1 :=
      if r.isRt || r.cls = .bestEffort then
        { r with
          budget := some (r.budget.getD (budgetDefault hz))
          deadline := some (r.deadline.getD (deadlineDefault hz))
          deadlineAuto := r.deadlineAuto || r.deadline.isNone }
      else r
    if r1.cls = .bestEffort then { r1 with isRt := true, cls := .rt } else r1

/-- `deadline = budget` when only a budget is known (node_builder.rs:540-542). -/
def fromBudget (r : Reg) : Reg :=
  if r.budget.isSome && r.deadline.isNone then { r with deadline := r.budget } else r

/-- An explicit budget or deadline implies RT (node_builder.rs:545-550). -/
def promote (explicit : Bool) (r : Reg) : Reg :=
  if explicit && r.cls = .bestEffort then { r with isRt := true, cls := .rt } else r

/-- `finalize` (node_builder.rs:502-551). -/
def finalize (r : Reg) : Reg :=
  promote (r.budget.isSome || r.deadline.isSome) (fromBudget (fromRate r))

/-- The errors of `validate`, in the order they are looked for (node_builder.rs:564-728). -/
inductive Refusal where
  | rate
  | emptyTopic
  | zeroDeadline
  | zeroBudget
  | freshness
  | noAlloc
  | rtClass
  | budgetClass
deriving DecidableEq

/-- The checks of `validate` after `finalize` (node_builder.rs:561-728). -/
def check (r : Reg) : Option Refusal :=
  if (match r.rate with | some hz => decide (hz ≤ 0) | none => false) then some .rate
  else if r.cls = .event "" then some .emptyTopic
  else if r.deadline = some 0 then some .zeroDeadline
  else if r.budget = some 0 then some .zeroBudget
  else if r.fresh ≠ [] ∧ r.cls ≠ .bestEffort then some .freshness
  else if r.noAlloc = true ∧ r.isRt = false ∧ r.cls ≠ .rt then some .noAlloc
  else if r.isRt = true ∧ r.cls ≠ .rt ∧ r.cls ≠ .bestEffort then some .rtClass
  else if r.isRt = false ∧ (r.budget.isSome ∨ r.deadline.isSome) then some .budgetClass
  else none

/-- `NodeBuilder::build` (node_builder.rs:985-988): what is handed to the scheduler, or the refusal.
The scheduler copies the fields unchanged (scheduler/mod.rs:1730-1737, 1820-1855). -/
def build (calls : List Call) : Except Refusal Reg :=
  let r := finalize (calls.foldl apply .new)
  match check r with
  | some e => .error e
  | none => .ok r

/-! ### Specification: what was asked for -/

/-- The value given by the last call that sets something. -/
def lastOf {α : Type} (f : Call → Option α) (calls : List Call) : Option α := (calls.filterMap f).getLast?

/-- The last `.rate()`, `.budget()`, `.deadline()`. -/
def rateOf : List Call → Option Rat := lastOf fun c => match c with | .rate hz => some hz | _ => none
def budgetOf : List Call → Option Nat := lastOf fun c => match c with | .budget b => some b | _ => none
def deadlineOf : List Call → Option Nat := lastOf fun c => match c with | .deadline d => some d | _ => none
/-- The last of `.compute()`, `.on(topic)`, `.async_io()`. -/
def classOf : List Call → Option Cls := lastOf fun c => match c with | .compute => some .compute | .on t => some (.event t) | .asyncIo => some .asyncIo | _ => none
/-- Whether `.no_alloc()` was called. -/
def noAllocOf (calls : List Call) : Prop := Call.noAlloc ∈ calls
/-- The `.subscribe_with_timeout()` calls. -/
def freshOf : List Call → List (String × Nat) := List.filterMap fun c => match c with | .subscribe t d => some (t, d) | _ => none

/-- The node asks for timing: a rate, a budget or a deadline. -/
def Timed (calls : List Call) : Prop :=
  rateOf calls ≠ none ∨ budgetOf calls ≠ none ∨ deadlineOf calls ≠ none

/-- The budget and deadline an RT node runs with: what was given, else 80 % and 95 % of the period, else
(deadline only) the budget. -/
def effBudget (calls : List Call) : Option Nat := (budgetOf calls).or ((rateOf calls).map budgetDefault)
def effDeadline (calls : List Call) : Option Nat :=
  ((deadlineOf calls).or ((rateOf calls).map deadlineDefault)).or (budgetOf calls)

/-- The configurations that are meant to be accepted. -/
def Acceptable (calls : List Call) : Prop :=
  (∀ hz, rateOf calls = some hz → 0 < hz) ∧
  match classOf calls with
  | some cls => cls ≠ .event "" ∧ budgetOf calls = none ∧ deadlineOf calls = none ∧ ¬ noAllocOf calls ∧ freshOf calls = []
  | none =>
    (¬ Timed calls ∧ ¬ noAllocOf calls) ∨
    (Timed calls ∧ freshOf calls = [] ∧ effBudget calls ≠ some 0 ∧ effDeadline calls ≠ some 0)

/-! ### Proofs -/

theorem lastOf_append {α : Type} (f : Call → Option α) (calls : List Call) (c : Call) :
    lastOf f (calls ++ [c]) = (f c).or (lastOf f calls) := by
  unfold lastOf
  rw [List.filterMap_append]
  cases h : f c with
  | none => simp [h]
  | some a => simp [h]

/-- The settings before `finalize` are the last ones given. -/
theorem gathered (calls : List Call) :
    let r := calls.foldl apply .new
    r.rate = rateOf calls ∧ r.budget = budgetOf calls ∧ r.deadline = deadlineOf calls ∧
    r.cls = (classOf calls).getD .bestEffort ∧ (r.noAlloc = true ↔ noAllocOf calls) ∧
    r.fresh = freshOf calls ∧ r.isRt = false ∧ r.deadlineAuto = false ∧
    r.order = ((lastOf fun c => match c with | .order n => some n | _ => none) calls).getD 0 ∧
    r.prio = (lastOf fun c => match c with | .priority n => some n | _ => none) calls ∧
    r.core = (lastOf fun c => match c with | .core n => some n | _ => none) calls ∧
    r.watchdog = (lastOf fun c => match c with | .watchdog n => some n | _ => none) calls ∧
    r.missPolicy = ((lastOf fun c => match c with | .onMiss n => some n | _ => none) calls).getD 0 ∧
    r.budgetPolicy = ((lastOf fun c => match c with | .budgetPolicy n => some n | _ => none) calls).getD 0 ∧
    r.failurePolicy = (lastOf fun c => match c with | .failurePolicy n => some n | _ => none) calls := by
  induction calls using List.reverseRecOn with
  | nil => simp [Reg.new, rateOf, budgetOf, deadlineOf, classOf, noAllocOf, freshOf, lastOf]
  | append_singleton calls c ih =>
    intro r
    obtain ⟨h1, h2, h3, h4, h5, h6, h7, h8, h9, h10, h11, h12, h13, h14, h15⟩ := ih
    have e : r = apply (calls.foldl apply .new) c := by simp [r, List.foldl_append]
    rw [e]
    unfold rateOf budgetOf deadlineOf classOf noAllocOf freshOf at *
    simp only [lastOf_append, List.filterMap_append, List.mem_append, List.mem_singleton]
    cases c <;> simp [apply, h1, h2, h3, h4, h5, h6, h7, h8, h9, h10, h11, h12, h13, h14, h15]

theorem classOf_ne_rt (calls : List Call) : classOf calls ≠ some .rt ∧ classOf calls ≠ some .bestEffort := by
  induction calls using List.reverseRecOn with
  | nil => simp [classOf, lastOf]
  | append_singleton calls c ih =>
    unfold classOf at *
    rw [lastOf_append]
    cases c <;> simp_all

/-- What `finalize` makes of settings with an explicit class. -/
theorem finalize_explicit (r : Reg) (hrt : r.isRt = false) (hc : r.cls ≠ .bestEffort) :
    finalize r = { r with deadline := r.deadline.or r.budget } := by
  have h1 : fromRate r = r := by
    unfold fromRate
    cases r.rate with
    | none => rfl
    | some hz => simp [hrt, hc]
  unfold finalize
  rw [h1]
  have h2 : (fromBudget r).cls = r.cls := by unfold fromBudget; split_ifs <;> rfl
  unfold promote
  rw [h2, if_neg (by simp [hc])]
  unfold fromBudget
  cases hb : r.budget <;> cases hd : r.deadline <;> simp <;> (cases r; simp_all)

/-- What `finalize` makes of settings without an explicit class that ask for timing. -/
theorem finalize_timed (r : Reg) (hc : r.cls = .bestEffort)
    (ht : r.rate.isSome ∨ r.budget.isSome ∨ r.deadline.isSome) :
    (finalize r).isRt = true ∧ (finalize r).cls = .rt ∧
    (finalize r).budget = r.budget.or (r.rate.map budgetDefault) ∧
    (finalize r).deadline = (r.deadline.or (r.rate.map deadlineDefault)).or r.budget ∧
    (finalize r).deadlineAuto = (r.deadlineAuto || (r.rate.isSome && r.deadline.isNone)) ∧
    (finalize r).rate = r.rate ∧ (finalize r).fresh = r.fresh ∧ (finalize r).noAlloc = r.noAlloc := by
  obtain ⟨o, rate, isRt, b, d, da, cls, na, sd, fr, pr, co, wd, mp, bp, fp⟩ := r
  dsimp only at hc ht
  subst hc
  cases rate <;> cases b <;> cases d <;> simp [finalize, fromRate, fromBudget, promote] at ht ⊢

/-- What `finalize` makes of settings that ask for nothing: no change. -/
theorem finalize_plain (r : Reg) (hr : r.rate = none) (hb : r.budget = none) (hd : r.deadline = none) :
    finalize r = r := by
  obtain ⟨o, rate, isRt, b, d, da, cls, na, sd, fr, pr, co, wd, mp, bp, fp⟩ := r
  dsimp only at hr hb hd
  subst hr hb hd
  simp [finalize, fromRate, fromBudget, promote]

/-- Validating a registration twice (or finalising an already validated one) changes nothing. -/
theorem finalize_again (calls : List Call) :
    finalize (finalize (calls.foldl apply .new)) = finalize (calls.foldl apply .new) := by
  obtain ⟨h1, h2, h3, h4, h5, h6, h7, h8, _⟩ := gathered calls
  generalize calls.foldl apply .new = r at *
  obtain ⟨o, rate, isRt, b, d, da, cls, na, sd, fr, pr, co, wd, mp, bp, fp⟩ := r
  dsimp only at h7 h8
  subst h7 h8
  cases rate <;> cases b <;> cases d <;> cases cls <;> simp [finalize, fromRate, fromBudget, promote]

theorem rate_test (o : Option Rat) :
    (match o with | some hz => decide (hz ≤ 0) | none => false) = true ↔ ¬ ∀ hz, o = some hz → 0 < hz := by
  cases o <;> simp

/-- A configuration is accepted exactly when it is acceptable: whatever the order of the calls and
however often each is repeated, only the last value given for each setting counts. -/
theorem accepted_iff (calls : List Call) : (∃ r, build calls = .ok r) ↔ Acceptable calls := by
  obtain ⟨h1, h2, h3, h4, h5, h6, h7, h8, _⟩ := gathered calls
  have hb : (∃ r, build calls = .ok r) ↔ check (finalize (calls.foldl apply .new)) = none := by
    unfold build
    cases hc : check (finalize (calls.foldl apply .new)) <;> simp [hc]
  rw [hb]
  unfold Acceptable Timed effBudget effDeadline
  have hne := classOf_ne_rt calls
  revert h1 h2 h3 h4 h5 h6 h7
  generalize calls.foldl apply .new = r
  generalize rateOf calls = R
  generalize budgetOf calls = B
  generalize deadlineOf calls = D
  generalize classOf calls = C at hne
  generalize freshOf calls = F
  generalize noAllocOf calls = N
  intro h1 h2 h3 h4 h5 h6 h7
  cases C with
  | some c =>
    have hc : r.cls = c := h4
    have hc1 : r.cls ≠ .bestEffort := by rw [hc]; intro h; rw [h] at hne; simp at hne
    have hc2 : r.cls ≠ .rt := by rw [hc]; intro h; rw [h] at hne; simp at hne
    rw [finalize_explicit r h7 hc1]
    unfold check
    dsimp only
    rw [h1, h2, h3, h6, h7, ← h5, ← hc]
    have hrt := rate_test R
    generalize (match R with | some hz => decide (hz ≤ 0) | none => false) = t at hrt
    by_cases hR : ∀ hz, R = some hz → 0 < hz
    · have ht : ¬ t = true := fun h => hrt.1 h hR
      rw [if_neg ht]
      split_ifs <;> (cases B <;> cases D <;> simp_all)
    · have ht : t = true := hrt.2 hR
      rw [if_pos ht]
      simp [hR]
  | none =>
    have hc : r.cls = .bestEffort := h4
    dsimp only
    have hrt := rate_test R
    by_cases hT : R ≠ none ∨ B ≠ none ∨ D ≠ none
    · obtain ⟨f1, f2, f3, f4, f5, f6, f7, f8⟩ := finalize_timed r hc (by
        rw [h1, h2, h3]
        cases R <;> cases B <;> cases D <;> simp_all)
      unfold check
      rw [f1, f2, f3, f4, f6, f7, h1, h2, h3, h6]
      generalize (match R with | some hz => decide (hz ≤ 0) | none => false) = t at hrt
      by_cases hR : ∀ hz, R = some hz → 0 < hz
      · have ht : ¬ t = true := fun h => hrt.1 h hR
        rw [if_neg ht]
        split_ifs <;> simp_all
      · have ht : t = true := hrt.2 hR
        rw [if_pos ht]
        simp [hR]
    · have hT' : R = none ∧ B = none ∧ D = none := by
        cases R <;> cases B <;> cases D <;> simp_all
      obtain ⟨rfl, rfl, rfl⟩ := hT'
      rw [finalize_plain r h1 h2 h3]
      unfold check
      rw [h1, h2, h3, h6, h7, hc, ← h5]
      simp

theorem build_eq {calls : List Call} {r : Reg} (h : build calls = .ok r) :
    r = finalize (calls.foldl apply .new) := by
  unfold build at h
  dsimp only at h
  split at h
  · simp at h
  · simp at h; exact h.symm

/-- What an accepted node runs as. -/
theorem accepted_as {calls : List Call} {r : Reg} (h : build calls = .ok r) :
    r.rate = rateOf calls ∧ r.fresh = freshOf calls ∧ (r.noAlloc = true ↔ noAllocOf calls) ∧
    (r.isRt = true ↔ r.cls = .rt) ∧
    (match classOf calls with
      | some cls => r.cls = cls ∧ r.budget = none ∧ r.deadline = none
      | none => (¬ Timed calls ∧ r.cls = .bestEffort ∧ r.budget = none ∧ r.deadline = none) ∨
          (Timed calls ∧ r.cls = .rt ∧ r.budget = effBudget calls ∧ r.deadline = effDeadline calls)) := by
  have hacc := (accepted_iff calls).1 ⟨r, h⟩
  obtain ⟨h1, h2, h3, h4, h5, h6, h7, h8, _⟩ := gathered calls
  have hr : r = finalize (calls.foldl apply .new) := build_eq h
  have hne := classOf_ne_rt calls
  subst hr
  revert hacc h1 h2 h3 h4 h5 h6 h7
  unfold Acceptable Timed effBudget effDeadline
  generalize calls.foldl apply .new = r
  generalize rateOf calls = R
  generalize budgetOf calls = B
  generalize deadlineOf calls = D
  generalize classOf calls = C at hne
  generalize freshOf calls = F
  generalize noAllocOf calls = N
  intro hacc h1 h2 h3 h4 h5 h6 h7
  cases C with
  | some c =>
    have hc : r.cls = c := h4
    have hc1 : r.cls ≠ .bestEffort := by rw [hc]; intro h; rw [h] at hne; simp at hne
    have hc2 : r.cls ≠ .rt := by rw [hc]; intro h; rw [h] at hne; simp at hne
    rw [finalize_explicit r h7 hc1]
    obtain ⟨_, _, a1, a2, _⟩ := hacc
    refine ⟨h1, h6, h5, by simp [h7, hc2], hc, ?_, ?_⟩
    · show r.budget = none; rw [h2, a1]
    · show r.deadline.or r.budget = none; rw [h2, h3, a1, a2]; rfl
  | none =>
    have hc : r.cls = .bestEffort := h4
    by_cases hT : R ≠ none ∨ B ≠ none ∨ D ≠ none
    · obtain ⟨f1, f2, f3, f4, f5, f6, f7, f8⟩ := finalize_timed r hc (by
        rw [h1, h2, h3]
        cases R <;> cases B <;> cases D <;> simp_all)
      refine ⟨f6.trans h1, f7.trans h6, by rw [f8]; exact h5, by simp [f1, f2], Or.inr ⟨hT, f2, ?_, ?_⟩⟩
      · rw [f3, h1, h2]
      · rw [f4, h1, h2, h3]
    · have hT' : R = none ∧ B = none ∧ D = none := by
        cases R <;> cases B <;> cases D <;> simp_all
      obtain ⟨rfl, rfl, rfl⟩ := hT'
      rw [finalize_plain r h1 h2 h3]
      exact ⟨h1, h6, h5, by simp [h7, hc], Or.inl ⟨hT, hc, h2, h3⟩⟩

/-- Settings that are only recorded arrive at the scheduler as last given. -/
theorem plain_settings {calls : List Call} {r : Reg} (h : build calls = .ok r) :
    r.order = ((lastOf fun c => match c with | .order n => some n | _ => none) calls).getD 0 ∧
    r.prio = (lastOf fun c => match c with | .priority n => some n | _ => none) calls ∧
    r.core = (lastOf fun c => match c with | .core n => some n | _ => none) calls ∧
    r.watchdog = (lastOf fun c => match c with | .watchdog n => some n | _ => none) calls ∧
    r.missPolicy = ((lastOf fun c => match c with | .onMiss n => some n | _ => none) calls).getD 0 ∧
    r.budgetPolicy = ((lastOf fun c => match c with | .budgetPolicy n => some n | _ => none) calls).getD 0 ∧
    r.failurePolicy = (lastOf fun c => match c with | .failurePolicy n => some n | _ => none) calls := by
  have hr : r = finalize (calls.foldl apply .new) := build_eq h
  have key : ∀ r : Reg, (finalize r).order = r.order ∧ (finalize r).prio = r.prio ∧ (finalize r).core = r.core ∧
      (finalize r).watchdog = r.watchdog ∧ (finalize r).missPolicy = r.missPolicy ∧
      (finalize r).budgetPolicy = r.budgetPolicy ∧ (finalize r).failurePolicy = r.failurePolicy := by
    intro r
    unfold finalize promote fromBudget fromRate
    cases r.rate <;> dsimp only <;> split_ifs <;> simp
  obtain ⟨_, _, _, _, _, _, _, _, g⟩ := gathered calls
  obtain ⟨k1, k2, k3, k4, k5, k6, k7⟩ := key (calls.foldl apply .new)
  obtain ⟨g1, g2, g3, g4, g5, g6, g7⟩ := g
  subst hr
  exact ⟨k1.trans g1, k2.trans g2, k3.trans g3, k4.trans g4, k5.trans g5, k6.trans g6, k7.trans g7⟩

/-- With a rate only (up to 50 MHz), the accepted node has budget < deadline < period. -/
theorem rate_only_partial {calls : List Call} {r : Reg} {hz : Rat} (h : build calls = .ok r)
    (hr : rateOf calls = some hz) (hmax : hz ≤ 50000000) (hb : budgetOf calls = none)
    (hd : deadlineOf calls = none) (hc : classOf calls = none) :
    ∃ b d, r.budget = some b ∧ r.deadline = some d ∧ 0 < b ∧ b < d ∧ d < period hz ∧ r.cls = .rt := by
  have hacc := (accepted_iff calls).1 ⟨r, h⟩
  have hpos : 0 < hz := hacc.1 hz hr
  have ha := (accepted_as h).2.2.2.2
  unfold Acceptable at hacc
  rw [hc] at ha hacc
  have ht : Timed calls := Or.inl (by rw [hr]; simp)
  rcases ha with ⟨hn, _⟩ | ⟨_, h1, h2, h3⟩
  · exact absurd ht hn
  · unfold effBudget at h2
    unfold effDeadline at h3
    rw [hb, hr] at h2
    rw [hb, hr, hd] at h3
    obtain ⟨k1, k2⟩ := Horus.Clocks.headroom hz hpos hmax
    refine ⟨_, _, h2, h3, ?_, k1, k2, h1⟩
    rcases hacc.2 with ⟨hn, _⟩ | ⟨_, _, h4, _⟩
    · exact absurd ht hn
    · unfold effBudget at h4
      rw [hb, hr] at h4
      rcases Nat.eq_zero_or_pos (budgetDefault hz) with h5 | h5
      · simp [h5] at h4
      · exact h5

/-- A budget without rate and deadline is also the deadline. -/
theorem budget_is_deadline {calls : List Call} {r : Reg} {b : Nat} (h : build calls = .ok r)
    (hr : rateOf calls = none) (hb : budgetOf calls = some b) (hd : deadlineOf calls = none) :
    r.cls = .rt ∧ r.budget = some b ∧ r.deadline = some b := by
  have ha := (accepted_as h).2.2.2.2
  have hacc := (accepted_iff calls).1 ⟨r, h⟩
  unfold Acceptable at hacc
  have ht : Timed calls := Or.inr (Or.inl (by rw [hb]; simp))
  cases hc : classOf calls with
  | some c => rw [hc] at hacc; rw [hacc.2.2.1] at hb; simp at hb
  | none =>
    rw [hc] at ha
    rcases ha with ⟨hn, _⟩ | ⟨_, h1, h2, h3⟩
    · exact absurd ht hn
    · refine ⟨h1, ?_, ?_⟩
      · rw [h2]; unfold effBudget; rw [hb]; rfl
      · rw [h3]; unfold effDeadline; rw [hd, hr, hb]; rfl

/-- The code's gap: a budget above 95 % of the period given together with the rate is accepted, and the
node then runs with a deadline shorter than its own budget. -/
theorem deadline_below_budget (hz : Rat) (b : Nat) (hpos : 0 < hz) (hd : 0 < deadlineDefault hz)
    (hb : deadlineDefault hz < b) :
    ∃ r, build [.rate hz, .budget b] = .ok r ∧ r.budget = some b ∧ r.deadline = some (deadlineDefault hz) := by
  have hacc : Acceptable [.rate hz, .budget b] := by
    refine ⟨?_, Or.inr ⟨Or.inl (by simp [rateOf, lastOf]), rfl, ?_, ?_⟩⟩
    · intro x hx; simp [rateOf, lastOf] at hx; subst hx; exact hpos
    · simp [effBudget, budgetOf, lastOf]; omega
    · simp [effDeadline, deadlineOf, rateOf, lastOf]; omega
  obtain ⟨r, hr⟩ := (accepted_iff _).2 hacc
  refine ⟨r, hr, ?_⟩
  have ha := (accepted_as hr).2.2.2.2
  have hc : classOf [.rate hz, .budget b] = none := rfl
  rw [hc] at ha
  rcases ha with ⟨hn, _⟩ | ⟨_, _, h2, h3⟩
  · exact absurd (Or.inl (by simp [rateOf, lastOf])) hn
  · exact ⟨h2, h3⟩

/-- `.rate(100.hz()).budget(12.ms())`: accepted with a 12 ms budget, a 9.5 ms deadline and a 10 ms
period. -/
example : ∃ r, build [.rate 100, .budget 12000000] = .ok r ∧ r.budget = some 12000000 ∧ r.deadline = some 9500000 := by
  have e : deadlineDefault 100 = 9500000 := by
    simp only [Horus.Clocks.deadlineDefault, Horus.Clocks.nanos]; norm_num; rfl
  obtain ⟨r, h1, h2, h3⟩ := deadline_below_budget 100 12000000 (by norm_num) (by rw [e]; norm_num) (by rw [e]; norm_num)
  exact ⟨r, h1, h2, by rw [h3, e]⟩

/-- Repeated and reordered calls: the last class and the last rate win, the timeout is refused with RT. -/
example : Acceptable [.compute, .rate 100, .asyncIo, .rate 50, .order 3] ∧ ¬ Acceptable [.rate 50, .subscribe "scan" 5] ∧
    Acceptable [.subscribe "scan" 5] ∧ ¬ Acceptable [.compute, .budget 5] ∧ ¬ Acceptable [.noAlloc] ∧ ¬ Acceptable [.on ""] ∧
    Acceptable [.deadline 5, .noAlloc] := by
  refine ⟨?_, ?_, ?_, ?_, ?_, ?_, ?_⟩
  · refine ⟨?_, ?_⟩
    · intro hz h; simp [rateOf, lastOf] at h; subst h; norm_num
    · simp [classOf, lastOf, budgetOf, deadlineOf, noAllocOf, freshOf]
  · simp [Acceptable, classOf, lastOf, Timed, rateOf, freshOf]
  · simp [Acceptable, classOf, lastOf, Timed, rateOf, budgetOf, deadlineOf, noAllocOf]
  · simp [Acceptable, classOf, lastOf, budgetOf]
  · simp [Acceptable, classOf, lastOf, Timed, rateOf, budgetOf, deadlineOf, noAllocOf]
  · simp [Acceptable, classOf, lastOf]
  · simp [Acceptable, classOf, lastOf, Timed, rateOf, budgetOf, deadlineOf, freshOf, effBudget, effDeadline]

end Horus.Builder
