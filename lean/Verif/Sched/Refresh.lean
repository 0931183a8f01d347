import Mathlib.Tactic.Common
import Mathlib.Data.List.Basic
import Mathlib.Data.List.Nodup
import Mathlib.Data.List.Dedup

/-!
What a running scheduler writes about its nodes for introspection
(`horus node list`): the presence refresh of
`horus_core/src/scheduling/scheduler/mod.rs` and the presence record of
`horus_core/src/core/presence.rs`.
-/

namespace Horus.Refresh

/-- `f` with `k` mapped to `v`: `HashMap::insert` (scheduler/mod.rs:3669). -/
def upd {α : Type} (f : String → Option α) (k : String) (v : α) : String → Option α :=
  fun x => if x = k then some v else f x

/-- A node still owned by the main thread: the fields of `RegisteredNode` that the refresh reads
(scheduler/mod.rs:3543-3668). `ticks` and `errs` are `context.metrics()` (0 without a context). -/
structure Node where
  name : String
  initialized : Bool
  stopped : Bool
  ticks : Nat
  errs : Nat
  prio : Option Nat
  core : Option Nat
  budget : Option Nat
  deadline : Option Nat

/-- One slot of the shared-memory node registry (registry.rs:306-357): name, ticks, errors. -/
structure Slot where
  name : String
  ticks : Nat
  errs : Nat

/-- `PresenceEntry` (scheduler/mod.rs:194-203). Priority and rate are copied and left out. -/
structure Entry where
  name : String
  main : Bool

/-- The health words written in a presence record (scheduler/mod.rs:3634-3648). -/
inductive Health
  | healthy | warning | error | critical
deriving DecidableEq

/-- `NodePresence` (presence.rs:319-372), the fields the refresh decides. `achieved` is the measured
rate as ticks over nanoseconds; `started` is the start time and `errors` the error count. -/
structure Pres where
  name : String
  ticks : Nat
  health : Health
  achieved : Option (Nat × Nat)
  started : Nat
  errors : Nat
  prio : Option Nat
  core : Option Nat
  budget : Option Nat
  deadline : Option Nat
deriving DecidableEq

/-- `presence_rate_samples` and `presence_reset_reported` (scheduler/mod.rs:269-278). -/
structure St where
  samples : String → Option (Nat × Nat)
  warned : List String

/-- A fresh scheduler (scheduler/mod.rs:455-457). -/
def St.init : St := ⟨fun _ => none, []⟩

/-- What one refresh sees. The clock is read once per node in the code; here once per refresh, in
nanoseconds. `valid` is `validate_node_name` (presence.rs:327). -/
structure View where
  roster : List Entry
  nodes : List Node
  slots : List Slot
  now : Nat

/-- The slot map (scheduler/mod.rs:3509-3519): empty when every node is on the main thread; a later
slot of the same name replaces an earlier one. -/
def slotOf (v : View) (n : String) : Option Slot :=
  if v.roster.any (fun e => !e.main) then v.slots.reverse.find? (fun s => s.name = n) else none

/-- `self.nodes.iter().find(..)` (scheduler/mod.rs:3543). -/
def live (v : View) (n : String) : Option Node := v.nodes.find? (fun x => x.name = n)

/-- Skipped entries (scheduler/mod.rs:3544-3548): main-thread nodes not initialised or stopped. -/
def skipped (v : View) (n : String) : Bool :=
  match live v n with
  | some x => !x.initialized || x.stopped
  | none => false

/-- The tick and error counts read for a node (scheduler/mod.rs:3550-3563). -/
def source (v : View) (n : String) : Nat × Nat :=
  match live v n, slotOf v n with
  | some x, _ => (x.ticks, x.errs)
  | none, some s => (s.ticks, s.errs)
  | none, none => (0, 0)

/-- The counter went backwards (scheduler/mod.rs:3580-3583). -/
def regressed (st : St) (v : View) (n : String) : Bool :=
  match st.samples n with
  | some (prev, _) => decide ((source v n).1 < prev)
  | none => false

/-- The tick count reported (scheduler/mod.rs:3584-3605). -/
def count (st : St) (v : View) (n : String) : Nat :=
  if regressed st v n then
    match st.samples n with
    | some (prev, _) => prev
    | none => (source v n).1
  else (source v n).1

/-- The health word (scheduler/mod.rs:3634-3648). -/
def health (reg : Bool) (errs : Nat) : Health :=
  if reg then .error else if errs > 10 then .critical else if errs > 3 then .error
  else if errs > 0 then .warning else .healthy

/-- The measured rate (scheduler/mod.rs:3622-3631): ticks since the last sample over the time since
it, when more than 50 ms passed. -/
def achieved (st : St) (v : View) (n : String) : Option (Nat × Nat) :=
  match st.samples n with
  | some (prev, at') =>
    if v.now - at' > 50000000 then some (count st v n - prev, v.now - at') else none
  | none => none

/-- The record written for one node (scheduler/mod.rs:3613-3666). `NodePresence::new` stamps the
start time with the current time and the error count with 0 (presence.rs:351-360); the refresh sets
neither. -/
def record (st : St) (v : View) (n : String) : Pres :=
  ⟨n, count st v n, health (regressed st v n) (source v n).2, achieved st v n, v.now, 0, (live v n).bind (·.prio), (live v n).bind (·.core), (live v n).bind (·.budget), (live v n).bind (·.deadline)⟩

/-- The roster entries a record is written for (scheduler/mod.rs:3542-3548, 3613). -/
def shown (valid : String → Bool) (v : View) : List String :=
  (v.roster.map (·.name)).filter (fun n => !skipped v n && valid n)

/-- The warnings of one refresh (scheduler/mod.rs:3590-3598): regressed nodes not yet reported. The
warning precedes the name check. -/
def warnings (st : St) (v : View) : List String :=
  (v.roster.map (·.name)).filter (fun n => !skipped v n && regressed st v n && !st.warned.contains n)

/-- One presence refresh (scheduler/mod.rs:3501-3671): the records written, the warnings, the next
state. -/
def refresh (valid : String → Bool) (st : St) (v : View) : List Pres × List String × St :=
  ((shown valid v).map (record st v), warnings st v,
    ⟨(shown valid v).foldl (fun f n => upd f n (count st v n, v.now)) st.samples,
     st.warned ++ warnings st v⟩)

/-- All records written during a run, in order. -/
def writes (valid : String → Bool) : St → List View → List Pres
  | _, [] => []
  | st, v :: vs => (refresh valid st v).1 ++ writes valid (refresh valid st v).2.2 vs

/-- All warnings printed during a run, in order. -/
def printed (valid : String → Bool) : St → List View → List String
  | _, [] => []
  | st, v :: vs => (refresh valid st v).2.1 ++ printed valid (refresh valid st v).2.2 vs

/-- The state after a run. -/
def after (valid : String → Bool) : St → List View → St
  | st, [] => st
  | st, v :: vs => after valid (refresh valid st v).2.2 vs

/-- `ticks_per_sec` (scheduler/mod.rs:3501) for a period in nanoseconds. The code computes
`ceil(1.0 / period)` in floating point; here exactly. -/
def perSec (period : Nat) : Nat := max ((1000000000 + period - 1) / period) 1

/-- Whether tick `t` refreshes (scheduler/mod.rs:3502). -/
def due (period t : Nat) : Bool := t == 1 || t % perSec period == 0

/-- `NodeMetrics::calculate_health` (core/node.rs:262-272), the health of the registry snapshot
file (scheduler/mod.rs:4096-4105). `avg` is the average tick duration in microseconds. -/
def calcHealth (errs failed avg : Nat) : Health :=
  if errs > 10 then .critical else if errs > 3 then .error
  else if failed > 0 ∨ avg > 100000 then .warning else .healthy

/-- `str::strip_suffix`. -/
def stripSuffix (suf t : List Char) : Option (List Char) :=
  if suf.isSuffixOf t then some (t.take (t.length - suf.length)) else none

/-- `derive_actions_from_topics`, `derive_services_from_topics` (presence.rs:379-412) with the list
of suffixes; the sorted set as a list without repetitions. -/
def derive (sufs : List (List Char)) (topics : List (List Char)) : List (List Char) :=
  (topics.flatMap fun t => sufs.filterMap fun s =>
    match stripSuffix s t with
    | some n => if n.isEmpty then none else some n
    | none => none).dedup

/-- The suffixes of an action's topics (presence.rs:383). -/
def actionSuffixes : List (List Char) :=
  [".goal".toList, ".result".toList, ".feedback".toList, ".status".toList, ".cancel".toList]

/-- The suffixes of a service's topics (presence.rs:404). -/
def serviceSuffixes : List (List Char) := [".request".toList, ".response".toList]

/-! ## Specification: the largest count seen so far -/

/-- The counts a node's reports are based on in a run: its source count at every refresh that wrote
a record for it. -/
def seen (valid : String → Bool) (n : String) (vs : List View) : List Nat :=
  (vs.filter fun v => decide (n ∈ shown valid v)).map fun v => (source v n).1

/-- The largest element of a list of counts. -/
def peak (l : List Nat) : Nat := l.foldl max 0

theorem foldl_max (l : List Nat) (a : Nat) : l.foldl max a = max a (peak l) := by
  induction l generalizing a with
  | nil => simp [peak]
  | cons x l ih =>
    simp only [List.foldl_cons, peak]
    rw [ih, ih (max 0 x)]; omega

theorem peak_append (a b : List Nat) : peak (a ++ b) = max (peak a) (peak b) := by
  unfold peak; rw [List.foldl_append, foldl_max]; rfl

/-! ## Proofs -/

theorem foldl_upd (g : String → Nat × Nat) (l : List String) (f : String → Option (Nat × Nat)) (n : String) :
    (l.foldl (fun f m => upd f m (g m)) f) n = if n ∈ l then some (g n) else f n := by
  induction l generalizing f with
  | nil => simp
  | cons a l ih =>
    simp only [List.foldl_cons, ih, upd, List.mem_cons]
    by_cases h1 : n ∈ l
    · simp [h1]
    · by_cases h2 : n = a
      · subst h2; simp [h1]
      · simp [h1, h2]

theorem refresh_samples (valid : String → Bool) (st : St) (v : View) (n : String) :
    (refresh valid st v).2.2.samples n = if n ∈ shown valid v then some (count st v n, v.now) else st.samples n :=
  foldl_upd (fun m => (count st v m, v.now)) _ _ _

/-- The state records, for every node, the largest count seen so far. -/
def Inv (valid : String → Bool) (st : St) (past : List View) : Prop :=
  ∀ n, match st.samples n with
    | some (c, _) => seen valid n past ≠ [] ∧ c = peak (seen valid n past)
    | none => seen valid n past = []

theorem count_eq (valid : String → Bool) (st : St) (v : View) (past : List View) (h : Inv valid st past) (n : String) :
    count st v n = max (peak (seen valid n past)) (source v n).1 := by
  have := h n
  unfold count regressed
  cases hs : st.samples n with
  | none => rw [hs] at this; simp only at this; rw [this]; simp [peak]
  | some p =>
    obtain ⟨c, t⟩ := p
    rw [hs] at this; simp only at this
    obtain ⟨_, hc⟩ := this
    simp only [decide_eq_true_eq]
    split <;> omega

theorem inv_step (valid : String → Bool) (st : St) (v : View) (past : List View) (h : Inv valid st past) :
    Inv valid (refresh valid st v).2.2 (past ++ [v]) := by
  intro n
  rw [refresh_samples]
  have hs : seen valid n (past ++ [v]) = seen valid n past ++ (if n ∈ shown valid v then [(source v n).1] else []) := by
    unfold seen; rw [List.filter_append, List.map_append]
    by_cases hn : n ∈ shown valid v <;> simp [hn]
  rw [hs]
  by_cases hn : n ∈ shown valid v
  · simp only [if_pos hn]
    refine ⟨by simp, ?_⟩
    rw [count_eq valid st v past h, peak_append]; simp [peak]
  · simp only [if_neg hn, List.append_nil]; exact h n

theorem inv_after (valid : String → Bool) (vs : List View) (st : St) (past : List View) (h : Inv valid st past) :
    Inv valid (after valid st vs) (past ++ vs) := by
  induction vs generalizing st past with
  | nil => simpa [after] using h
  | cons v vs ih =>
    have := ih _ _ (inv_step valid st v past h)
    rw [List.append_assoc] at this; exact this

theorem inv_init (valid : String → Bool) : Inv valid St.init [] := fun _ => rfl

theorem inv_run (valid : String → Bool) (vs : List View) : Inv valid (after valid St.init vs) vs := by
  simpa using inv_after valid vs St.init [] (inv_init valid)

/-- **Every report is the largest count seen so far**: after any history, the tick count written for
a node is the maximum of what its counter showed at this and every earlier refresh that reported it. -/
theorem reported_is_peak (valid : String → Bool) (past : List View) (v : View) (p : Pres)
    (hp : p ∈ (refresh valid (after valid St.init past) v).1) :
    p.ticks = peak (seen valid p.name (past ++ [v])) := by
  simp only [refresh, List.mem_map] at hp
  obtain ⟨n, hn, rfl⟩ := hp
  show count _ v n = _
  rw [count_eq valid _ v past (inv_run valid past)]
  unfold seen
  rw [List.filter_append, List.map_append, peak_append]
  show max (peak (seen valid n past)) _ = max (peak (seen valid n past)) (peak (((List.filter (fun w => decide (n ∈ shown valid w)) [v])).map fun w => (source w n).1))
  simp [hn, peak]

/-- **Introspection never sees a node's tick count go down**, whatever happens to the counters: of
two records written for the same node, the later has at least the count of the earlier. -/
theorem reported_monotone (valid : String → Bool) (vs : List View)
    (hu : ∀ v ∈ vs, (v.roster.map (·.name)).Nodup) :
    (writes valid St.init vs).Pairwise (fun a b => a.name = b.name → a.ticks ≤ b.ticks) := by
  have key : ∀ (vs : List View) (st : St) (past : List View), Inv valid st past →
      (∀ v ∈ vs, (v.roster.map (·.name)).Nodup) →
      (∀ p ∈ writes valid st vs, peak (seen valid p.name past) ≤ p.ticks) ∧
      (writes valid st vs).Pairwise (fun a b => a.name = b.name → a.ticks ≤ b.ticks) := by
    intro vs
    induction vs with
    | nil => intro st past _ _; exact ⟨fun p hp => by simp [writes] at hp, by simp [writes]⟩
    | cons v vs ih =>
      intro st past hi hu
      obtain ⟨ih1, ih2⟩ := ih _ _ (inv_step valid st v past hi) (fun w hw => hu w (List.mem_cons_of_mem _ hw))
      have hpk : ∀ n, n ∈ shown valid v → peak (seen valid n (past ++ [v])) = count st v n := by
        intro n hn
        rw [count_eq valid st v past hi]
        unfold seen; rw [List.filter_append, List.map_append, peak_append]; simp [hn, peak]
      have hmono : ∀ n, peak (seen valid n past) ≤ peak (seen valid n (past ++ [v])) := by
        intro n; unfold seen; rw [List.filter_append, List.map_append, peak_append]; omega
      refine ⟨?_, ?_⟩
      · intro p hp
        rcases List.mem_append.1 hp with hp | hp
        · simp only [refresh, List.mem_map] at hp
          obtain ⟨n, hn, rfl⟩ := hp
          show _ ≤ count st v n
          rw [← hpk n hn]; exact hmono n
        · exact Nat.le_trans (hmono _) (ih1 p hp)
      · rw [writes, List.pairwise_append]
        refine ⟨?_, ih2, ?_⟩
        · show ((shown valid v).map (record st v)).Pairwise _
          rw [List.pairwise_map]
          have hnd : (shown valid v).Nodup := (hu v (by simp)).filter _
          refine hnd.imp ?_
          intro a b hab he
          exact absurd he hab
        · intro a ha b hb he
          simp only [refresh, List.mem_map] at ha
          obtain ⟨n, hn, rfl⟩ := ha
          have h1 := ih1 b hb
          rw [← he] at h1
          show count st v n ≤ b.ticks
          rw [← hpk n hn]; exact h1
  exact (key vs St.init [] (inv_init valid) hu).2

/-- **With counters that only grow, every report is exact**: the count written is the node's own. -/
theorem reported_exact (valid : String → Bool) (past : List View) (v : View) (p : Pres)
    (hp : p ∈ (refresh valid (after valid St.init past) v).1)
    (hg : ∀ w ∈ past, (source w p.name).1 ≤ (source v p.name).1) :
    p.ticks = (source v p.name).1 := by
  rw [reported_is_peak valid past v p hp]
  simp only [refresh, List.mem_map] at hp
  obtain ⟨n, hn, rfl⟩ := hp
  have hle : ∀ l : List Nat, (∀ x ∈ l, x ≤ (source v n).1) → peak l ≤ (source v n).1 := by
    intro l
    induction l with
    | nil => intro _; simp [peak]
    | cons x l ih =>
      intro h
      have h1 := ih (fun y hy => h y (List.mem_cons_of_mem _ hy))
      have h2 := h x (by simp)
      simp only [peak, List.foldl_cons]; rw [foldl_max]; omega
  have h1 : peak (seen valid n past) ≤ (source v n).1 := by
    apply hle
    intro x hx
    simp only [seen, List.mem_map, List.mem_filter] at hx
    obtain ⟨w, ⟨hw, _⟩, rfl⟩ := hx
    exact hg w hw
  show peak (seen valid n (past ++ [v])) = _
  unfold seen at h1 ⊢
  rw [List.filter_append, List.map_append, peak_append]
  simp only [List.filter_cons, hn, decide_true, if_true, List.filter_nil, List.map_cons, List.map_nil]
  show max (peak _) (peak [(source v n).1]) = (source v n).1
  have h2 : peak [(source v n).1] = (source v n).1 := by simp [peak]
  omega

/-- **A node is "Healthy" exactly when** it has no errors and its counter is not behind an earlier
report: a reset is never shown as healthy. -/
theorem healthy_iff (valid : String → Bool) (past : List View) (v : View) (p : Pres)
    (hp : p ∈ (refresh valid (after valid St.init past) v).1) :
    p.health = .healthy ↔ (source v p.name).2 = 0 ∧ peak (seen valid p.name past) ≤ (source v p.name).1 := by
  simp only [refresh, List.mem_map] at hp
  obtain ⟨n, hn, rfl⟩ := hp
  have hi := inv_run valid past n
  have hr : regressed (after valid St.init past) v n = decide ((source v n).1 < peak (seen valid n past)) := by
    unfold regressed
    cases hs : (after valid St.init past).samples n with
    | none => rw [hs] at hi; simp only at hi; rw [hi]; simp [peak]
    | some q => obtain ⟨c, t⟩ := q; rw [hs] at hi; simp only at hi; rw [← hi.2]
  show health _ _ = _ ↔ (source v n).2 = 0 ∧ peak (seen valid n past) ≤ (source v n).1
  rw [hr]
  unfold health
  by_cases h : (source v n).1 < peak (seen valid n past)
  · simp [h]
  · have h' : peak (seen valid n past) ≤ (source v n).1 := by omega
    simp only [h, decide_false, Bool.false_eq_true, if_false, h', and_true]
    split
    · simp; omega
    · split
      · simp; omega
      · split
        · simp; omega
        · simp; omega

/-- Without a reset the word is decided by the error count alone. -/
theorem health_by_errors (errs : Nat) :
    (health false errs = .critical ↔ 10 < errs) ∧ (health false errs = .error ↔ 3 < errs ∧ errs ≤ 10) ∧
    (health false errs = .warning ↔ 0 < errs ∧ errs ≤ 3) ∧ (health false errs = .healthy ↔ errs = 0) := by
  unfold health
  simp only [Bool.false_eq_true, if_false]
  refine ⟨?_, ?_, ?_, ?_⟩ <;> (split <;> [skip; split <;> [skip; split]]) <;> simp <;> omega

/-- **A reset hides a critical node**: once the counter is behind, a node with any number of errors
is shown as "Error". -/
theorem reset_masks_critical (errs : Nat) : health true errs = .error := rfl

theorem printed_mem_warned (valid : String → Bool) (vs : List View) (st : St) (n : String) (h : n ∈ st.warned) :
    n ∉ printed valid st vs := by
  induction vs generalizing st with
  | nil => simp [printed]
  | cons v vs ih =>
    simp only [printed, List.mem_append, not_or]
    refine ⟨?_, ih _ ?_⟩
    · show n ∉ warnings st v
      intro hw
      simp only [warnings, List.mem_filter, Bool.and_eq_true, Bool.not_eq_true'] at hw
      have := hw.2.2
      rw [List.contains_iff_mem.2 h] at this; cases this
    · exact List.mem_append_left _ h

/-- **The reset is announced once per node**: no run prints the warning twice for one node. -/
theorem warned_once (valid : String → Bool) (vs : List View) (st : St)
    (hu : ∀ v ∈ vs, (v.roster.map (·.name)).Nodup) : (printed valid st vs).Nodup := by
  induction vs generalizing st with
  | nil => simp [printed]
  | cons v vs ih =>
    rw [printed, List.nodup_append']
    refine ⟨(hu v (by simp)).filter _, ih _ (fun w hw => hu w (List.mem_cons_of_mem _ hw)), ?_⟩
    intro a ha hb
    exact printed_mem_warned valid vs _ a (List.mem_append_right _ ha) hb

theorem warned_after (valid : String → Bool) (vs : List View) (st : St) :
    (after valid st vs).warned = st.warned ++ printed valid st vs := by
  induction vs generalizing st with
  | nil => simp [after, printed]
  | cons v vs ih => rw [after, ih, printed, ← List.append_assoc]; rfl

/-- **... and it is announced**: when a node that is reported has a counter behind an earlier report,
the warning has been printed by the end of that refresh. -/
theorem reset_announced (valid : String → Bool) (past : List View) (v : View) (p : Pres)
    (hp : p ∈ (refresh valid (after valid St.init past) v).1)
    (hr : (source v p.name).1 < peak (seen valid p.name past)) :
    p.name ∈ printed valid St.init (past ++ [v]) ∧ p.health = .error := by
  simp only [refresh, List.mem_map] at hp
  obtain ⟨n, hn, rfl⟩ := hp
  have hr : (source v n).1 < peak (seen valid n past) := hr
  have hi := inv_run valid past n
  have hreg : regressed (after valid St.init past) v n = true := by
    unfold regressed
    cases hs : (after valid St.init past).samples n with
    | none => rw [hs] at hi; simp only at hi; rw [hi] at hr; simp [peak] at hr
    | some q => obtain ⟨c, t⟩ := q; rw [hs] at hi; simp only at hi ⊢; rw [hi.2]; exact decide_eq_true hr
  have hpa : ∀ (a : List View) (st : St), printed valid st (a ++ [v]) = printed valid st a ++ warnings (after valid st a) v := by
    intro a
    induction a with
    | nil => intro st; simp [printed, after, refresh]
    | cons w a ih => intro st; simp only [List.cons_append, printed, after, ih, List.append_assoc]
  refine ⟨?_, ?_⟩
  · show n ∈ _
    rw [hpa, List.mem_append]
    by_cases hw : n ∈ (after valid St.init past).warned
    · left; rw [warned_after] at hw; simpa [St.init] using hw
    · right
      simp only [shown, List.mem_filter, Bool.and_eq_true] at hn
      simp only [warnings, List.mem_filter, Bool.and_eq_true, Bool.not_eq_true', hreg]
      refine ⟨hn.1, ⟨by simpa using hn.2.1, trivial⟩, ?_⟩
      cases hc : (after valid St.init past).warned.contains n with
      | false => rfl
      | true => exact absurd (List.contains_iff_mem.1 hc) hw
  · show health _ _ = _
    rw [hreg]; rfl

/-- **The measured rate** is present exactly from the second report on, more than 50 ms after the
last; it is the growth of the reported count over the time since. -/
theorem achieved_iff (valid : String → Bool) (past : List View) (v w : View) (n : String) (q : Nat × Nat)
    (hw : n ∈ shown valid w) :
    achieved (after valid St.init (past ++ [w])) v n = some q ↔
      50000000 < v.now - w.now ∧ q.2 = v.now - w.now ∧
      q.1 = max (peak (seen valid n (past ++ [w]))) (source v n).1 - peak (seen valid n (past ++ [w])) := by
  have hs : (after valid St.init (past ++ [w])).samples n = some (peak (seen valid n (past ++ [w])), w.now) := by
    have hi := inv_run valid (past ++ [w]) n
    have ha : ∀ (a : List View) (st : St), after valid st (a ++ [w]) = (refresh valid (after valid st a) w).2.2 := by
      intro a; induction a with
      | nil => intro st; rfl
      | cons x a ih => intro st; simp only [List.cons_append, after, ih]
    have h2 : (after valid St.init (past ++ [w])).samples n = some (count (after valid St.init past) w n, w.now) := by
      rw [ha, refresh_samples, if_pos hw]
    rw [h2] at hi ⊢
    simp only at hi; rw [hi.2]
  unfold achieved
  rw [hs]
  simp only [count_eq valid _ v _ (inv_run valid (past ++ [w]))]
  obtain ⟨a, b⟩ := q
  by_cases h : v.now - w.now > 50000000
  · rw [if_pos h]; simp only [Option.some.injEq, Prod.mk.injEq]
    exact ⟨fun ⟨x, y⟩ => ⟨h, y.symm, x.symm⟩, fun ⟨_, y, x⟩ => ⟨x.symm, y.symm⟩⟩
  · rw [if_neg h]; constructor
    · intro x; cases x
    · intro x; exact absurd x.1 h

/-- **Who is reported**: a name with a valid presence name on the roster, unless it is a main-thread
node that is stopped or not initialised. -/
theorem reported_iff (valid : String → Bool) (st : St) (v : View) (n : String) :
    (∃ p ∈ (refresh valid st v).1, p.name = n) ↔
      n ∈ v.roster.map (·.name) ∧ valid n = true ∧ ∀ x, live v n = some x → x.initialized = true ∧ x.stopped = false := by
  have : (∃ p ∈ (refresh valid st v).1, p.name = n) ↔ n ∈ shown valid v := by
    simp only [refresh, List.mem_map]
    constructor
    · rintro ⟨p, ⟨m, hm, rfl⟩, rfl⟩; exact hm
    · intro h; exact ⟨record st v n, ⟨n, h, rfl⟩, rfl⟩
  rw [this]
  simp only [shown, List.mem_filter, Bool.and_eq_true, Bool.not_eq_true', skipped]
  cases hl : live v n with
  | none => simp
  | some x => simp; tauto

/-- **A node on an executor thread is reported for as long as the scheduler runs**, stopped or not:
the refresh has no way to see that it stopped. -/
theorem executor_always_reported (valid : String → Bool) (st : St) (v : View) (e : Entry)
    (he : e ∈ v.roster) (hv : valid e.name = true) (hn : ∀ x ∈ v.nodes, x.name ≠ e.name) :
    ∃ p ∈ (refresh valid st v).1, p.name = e.name := by
  rw [reported_iff]
  refine ⟨List.mem_map_of_mem he, hv, ?_⟩
  intro x hx
  have h1 := List.mem_of_find?_eq_some hx
  have h2 := List.find?_some hx
  exact absurd (by simpa using h2) (hn x h1)

/-- **The real-time settings of an executor node are never reported**: priority, core, budget and
deadline are absent from its record, although only executor nodes run with them. -/
theorem executor_settings_lost (valid : String → Bool) (st : St) (v : View) (p : Pres)
    (hp : p ∈ (refresh valid st v).1) (hn : ∀ x ∈ v.nodes, x.name ≠ p.name) :
    p.prio = none ∧ p.core = none ∧ p.budget = none ∧ p.deadline = none := by
  simp only [refresh, List.mem_map] at hp
  obtain ⟨n, _, rfl⟩ := hp
  have hl : live v n = none := by
    unfold live
    rw [List.find?_eq_none]
    intro x hx; simpa using (show x.name ≠ n from hn x hx)
  simp [record, hl]

/-- A main-thread node's record carries the node's own settings and counts. -/
theorem main_settings (valid : String → Bool) (st : St) (v : View) (p : Pres) (x : Node)
    (hp : p ∈ (refresh valid st v).1) (hl : live v p.name = some x) :
    p.prio = x.prio ∧ p.core = x.core ∧ p.budget = x.budget ∧ p.deadline = x.deadline ∧ x.ticks ≤ p.ticks := by
  simp only [refresh, List.mem_map] at hp
  obtain ⟨n, _, rfl⟩ := hp
  have hl : live v n = some x := hl
  refine ⟨by simp [record, hl], by simp [record, hl], by simp [record, hl], by simp [record, hl], ?_⟩
  show x.ticks ≤ count st v n
  have hsrc : (source v n).1 = x.ticks := by unfold source; rw [hl]
  unfold count regressed
  cases hs : st.samples n with
  | none => simp [hsrc]
  | some q =>
    obtain ⟨c, t⟩ := q
    simp only [hsrc, decide_eq_true_eq]
    split <;> omega

/-- **An executor node with no registry slot under its full name is reported with no ticks and as
healthy, for ever.** Slots hold 47 bytes of a name and there are 64 of them, so this is every
executor node with a longer name and every node past the 64th. -/
theorem unslotted_reports_zero (valid : String → Bool) (past : List View) (v : View) (p : Pres)
    (hp : p ∈ (refresh valid (after valid St.init past) v).1)
    (hn : ∀ w ∈ past ++ [v], (∀ x ∈ w.nodes, x.name ≠ p.name) ∧ ∀ s ∈ w.slots, s.name ≠ p.name) :
    p.ticks = 0 ∧ p.health = .healthy := by
  have hsrc : ∀ w ∈ past ++ [v], source w p.name = (0, 0) := by
    intro w hw
    obtain ⟨h1, h2⟩ := hn w hw
    have hl : live w p.name = none := by
      unfold live; rw [List.find?_eq_none]; intro x hx; simpa using h1 x hx
    have hsl : slotOf w p.name = none := by
      unfold slotOf; split
      · rw [List.find?_eq_none]; intro x hx; simpa using h2 x (List.mem_reverse.1 hx)
      · rfl
    unfold source; rw [hl, hsl]
  have hz : ∀ l : List View, (∀ w ∈ l, w ∈ past ++ [v]) → peak (seen valid p.name l) = 0 := by
    intro l
    induction l with
    | nil => intro _; rfl
    | cons w l ih =>
      intro h
      have h1 := ih (fun x hx => h x (List.mem_cons_of_mem _ hx))
      have h2 := hsrc w (h w (by simp))
      unfold seen at h1 ⊢
      rw [List.filter_cons]
      split
      · rw [List.map_cons, ← List.singleton_append, peak_append, h1, h2]; rfl
      · exact h1
  refine ⟨?_, ?_⟩
  · rw [reported_is_peak valid past v p hp]; exact hz _ (fun _ h => h)
  · rw [healthy_iff valid past v p hp, hsrc v (by simp), hz past (fun w hw => by simp [hw])]
    exact ⟨rfl, Nat.le_refl _⟩

/-- **The start time is the time of the refresh and the error count is 0**, in every record. -/
theorem start_and_errors_wrong (valid : String → Bool) (st : St) (v : View) (p : Pres)
    (hp : p ∈ (refresh valid st v).1) : p.started = v.now ∧ p.errors = 0 := by
  simp only [refresh, List.mem_map] at hp
  obtain ⟨n, _, rfl⟩ := hp
  exact ⟨rfl, rfl⟩

/-- **The first tick refreshes**, whatever the period: nodes are announced without waiting a second. -/
theorem first_refresh (period : Nat) : due period 1 = true := by simp [due]

/-- **At least one refresh in any `perSec` consecutive ticks**. -/
theorem refresh_due (period t : Nat) : ∃ k, t ≤ k ∧ k < t + perSec period ∧ due period k = true := by
  have hp : 0 < perSec period := by unfold perSec; omega
  refine ⟨(t + perSec period - 1) / perSec period * perSec period, ?_, ?_, ?_⟩
  · have := Nat.div_add_mod (t + perSec period - 1) (perSec period)
    have h2 := Nat.mod_lt (t + perSec period - 1) hp
    rw [Nat.mul_comm] at this; omega
  · have := Nat.div_add_mod (t + perSec period - 1) (perSec period)
    rw [Nat.mul_comm] at this; omega
  · simp [due]

/-- **The refresh comes about once a second**: `perSec` ticks last at least a second, and less than a
second and one tick. -/
theorem refresh_interval (period : Nat) (hp : 0 < period) :
    1000000000 ≤ perSec period * period ∧ perSec period * period < 1000000000 + period := by
  have h := Nat.div_add_mod (1000000000 + period - 1) period
  have h2 := Nat.mod_lt (1000000000 + period - 1) hp
  rw [Nat.mul_comm] at h
  have hge : 1 ≤ (1000000000 + period - 1) / period := by
    rw [Nat.le_div_iff_mul_le hp]; omega
  have : perSec period = (1000000000 + period - 1) / period := by unfold perSec; omega
  rw [this]
  exact ⟨by omega, by omega⟩

/-- The registry file and the presence record **agree on a node's health** from four errors on. -/
theorem health_agrees_partial (errs failed avg : Nat) (h : 3 < errs) :
    health false errs = calcHealth errs failed avg := by
  unfold health calcHealth
  simp only [Bool.false_eq_true, if_false]
  by_cases h1 : errs > 10
  · simp [h1]
  · simp [h1, h]

/-- Below that they disagree both ways: one to three errors are healthy in the registry file, and
failed or slow ticks are healthy in the presence record. -/
theorem health_disagrees : (∀ e, 0 < e → e ≤ 3 → health false e = .warning ∧ calcHealth e 0 0 = .healthy) ∧
    (∀ f a, 0 < f ∨ 100000 < a → health false 0 = .healthy ∧ calcHealth 0 f a = .warning) := by
  refine ⟨?_, ?_⟩
  · intro e h1 h2
    unfold health calcHealth
    simp only [Bool.false_eq_true, if_false]
    rw [if_neg (by omega), if_neg (by omega), if_pos (by omega), if_neg (by omega), if_neg (by omega), if_neg (by omega)]
    exact ⟨rfl, rfl⟩
  · intro f a h
    unfold health calcHealth
    simp only [Bool.false_eq_true, if_false]
    rw [if_neg (by omega), if_neg (by omega), if_neg (by omega), if_neg (by omega), if_neg (by omega), if_pos (by omega)]
    exact ⟨rfl, rfl⟩

theorem stripSuffix_iff (s t n : List Char) : stripSuffix s t = some n ↔ t = n ++ s := by
  unfold stripSuffix
  constructor
  · intro h
    split at h
    · rename_i hs
      rw [List.isSuffixOf_iff_suffix] at hs
      obtain ⟨u, rfl⟩ := hs
      simp at h; rw [h]
    · cases h
  · rintro rfl
    rw [if_pos (List.isSuffixOf_iff_suffix.2 ⟨n, rfl⟩)]; simp

/-- **The actions and services of a node**: exactly the non-empty names with a topic `name ++ suffix`
among those it publishes or subscribes to, each once. -/
theorem derive_iff (sufs topics : List (List Char)) (n : List Char) :
    (n ∈ derive sufs topics ↔ n ≠ [] ∧ ∃ s ∈ sufs, n ++ s ∈ topics) ∧ (derive sufs topics).Nodup := by
  refine ⟨?_, List.nodup_dedup _⟩
  simp only [derive, List.mem_dedup, List.mem_flatMap, List.mem_filterMap]
  constructor
  · rintro ⟨t, ht, s, hs, h⟩
    cases hq : stripSuffix s t with
    | none => rw [hq] at h; cases h
    | some m =>
      rw [hq] at h
      simp only at h
      split at h
      · cases h
      · rename_i he
        cases h
        refine ⟨by simpa using he, s, hs, ?_⟩
        rw [← (stripSuffix_iff s t n).1 hq]; exact ht
  · rintro ⟨hn, s, hs, ht⟩
    refine ⟨n ++ s, ht, s, hs, ?_⟩
    rw [(stripSuffix_iff s (n ++ s) n).2 rfl]
    simp only
    rw [if_neg (by simpa using hn)]

/-- **An ordinary topic makes an action**: a node that only publishes `motor.status` is listed as
having the action `motor`. -/
theorem status_topic_is_action : derive actionSuffixes ["motor.status".toList] = ["motor".toList] := by decide +kernel

/-! ## Concrete cases -/

/-- An executor node `imu` seen at 795 ticks, then with its registry deleted, then back at 1000. -/
def demo : List View :=
  [⟨[⟨"imu", false⟩, ⟨"log", true⟩], [⟨"log", true, false, 80, 0, some 10, none, none, none⟩], [⟨"imu", 795, 0⟩], 0⟩,
   ⟨[⟨"imu", false⟩, ⟨"log", true⟩], [⟨"log", true, false, 180, 2, some 10, none, none, none⟩], [], 1000000000⟩,
   ⟨[⟨"imu", false⟩, ⟨"log", true⟩], [⟨"log", true, true, 180, 2, some 10, none, none, none⟩], [⟨"imu", 1000, 0⟩], 2000000000⟩]

example : (writes (fun _ => true) St.init demo).map (fun p => (p.name, p.ticks, p.health, p.achieved)) =
    [("imu", 795, .healthy, none), ("log", 80, .healthy, none), ("imu", 795, .error, some (0, 1000000000)), ("log", 180, .warning, some (100, 1000000000)), ("imu", 1000, .healthy, some (205, 1000000000))] := by decide +kernel
example : printed (fun _ => true) St.init demo = ["imu"] := by decide +kernel
example : ∀ v ∈ demo, (v.roster.map (·.name)).Nodup := by decide +kernel
example : perSec 10000000 = 100 ∧ due 10000000 200 = true ∧ due 10000000 201 = false := by decide

end Horus.Refresh
