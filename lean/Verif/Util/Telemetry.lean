import Mathlib.Data.List.Basic
import Mathlib.Data.List.Induction
import Mathlib.Tactic.Common
/-
Telemetry: metrics recorded by the scheduler and exported at an interval. Source:
/repo/horus_core/src/scheduling/telemetry.rs:117-336; its use in scheduler/mod.rs:3446-3476 and 3752-3757.
Names, labels and values are numbers. The endpoint modelled is HTTP; the others export in the call itself.
-/
namespace Horus.Telemetry

/-- telemetry.rs Metric, without its time stamp. -/
structure Metric where
  name : Nat
  label : Option Nat
  value : Nat
deriving DecidableEq

/-- The manager: the map from name to metric as a list in which each name occurs once (`HashMap`; its order means nothing), the channel
to the background thread, the snapshot that thread is posting, and what it posted so far. -/
structure St where
  metrics : List Metric
  queue : List (List Metric)
  posting : Option (List Metric)
  posted : List (List Metric)
  exported : List (List Metric)

def St.new : St := { metrics := [], queue := [], posting := none, posted := [], exported := [] }

/-- telemetry.rs:189-205 `record`. -/
def record (s : St) (m : Metric) : St := { s with metrics := s.metrics.filter (·.name ≠ m.name) ++ [m] }

/-- telemetry.rs:131: the channel's capacity. -/
def CAP : Nat := 4

/-- telemetry.rs:234-273 `export`; `exported` only keeps count of the calls. -/
def doExport (s : St) : St :=
  let s := { s with exported := s.exported ++ [s.metrics] }
  if s.queue.length < CAP then { s with queue := s.queue ++ [s.metrics] } else s

/-- telemetry.rs:137: the background thread takes the next snapshot. -/
def take (s : St) : St :=
  match s.posting, s.queue with
  | none, q :: qs => { s with posting := some q, queue := qs }
  | _, _ => s

/-- telemetry.rs:138-140: the request is over, well or badly. -/
def done (s : St) : St :=
  match s.posting with
  | some p => { s with posting := none, posted := s.posted ++ [p] }
  | none => s

inductive Act
  | record (m : Metric)
  | doExport
  | take
  | done

def step (s : St) : Act → St
  | .record m => record s m
  | .doExport => doExport s
  | .take => take s
  | .done => done s

def run (as : List Act) : St := as.foldl step St.new

/-- scheduler/mod.rs:3462-3470: the metrics of the nodes, each with its label. `AVG` and `COUNT` are the two names. -/
def AVG : Nat := 100
def COUNT : Nat := 101

def recordNodes (s : St) (nodes : List (Nat × Nat × Nat)) : St :=
  nodes.foldl (fun s n => record (record s ⟨AVG, some n.1, n.2.1⟩) ⟨COUNT, some n.1, n.2.2⟩) s

/-- telemetry.rs:325-336 `drop`: the thread goes on until the channel is empty. -/
def close (s : St) : St := { s with posted := s.posted ++ s.posting.toList ++ s.queue, posting := none, queue := [] }

/-! ### Metrics -/

/-- The last value recorded under a name. -/
def lastOf (n : Nat) (ms : List Metric) : Option Metric := (ms.filter (·.name == n)).getLast?

theorem record_find (s : St) (m : Metric) (n : Nat) :
    (record s m).metrics.filter (·.name == n) = if m.name = n then [m] else s.metrics.filter (·.name == n) := by
  unfold record
  dsimp only
  rw [List.filter_append, List.filter_filter]
  by_cases h : m.name = n
  · rw [if_pos h]
    have : s.metrics.filter (fun a => (a.name == n) && decide (a.name ≠ m.name)) = [] := by
      rw [List.filter_eq_nil_iff]
      intro a _
      subst h
      simp
    rw [this]
    simp [h]
  · rw [if_neg h]
    have : s.metrics.filter (fun a => (a.name == n) && decide (a.name ≠ m.name)) = s.metrics.filter (·.name == n) := by
      apply List.filter_congr
      intro a _
      by_cases ha : a.name = n
      · have hne : a.name ≠ m.name := fun he => h (he.symm.trans ha)
        simp [ha, Ne.symm h]
      · simp [ha]
    rw [this]
    simp [h]

/-- **A snapshot holds the last value of every name recorded**, once. -/
theorem snapshot_latest (ms : List Metric) (n : Nat) :
    (ms.foldl record St.new).metrics.filter (·.name == n) = (lastOf n ms).toList := by
  induction ms using List.reverseRecOn with
  | nil => rfl
  | append_singleton ms m ih =>
    rw [List.foldl_append]
    show (record (ms.foldl record St.new) m).metrics.filter (·.name == n) = _
    rw [record_find, ih]
    unfold lastOf
    rw [List.filter_append]
    by_cases h : m.name = n
    · rw [if_pos h]
      simp [h]
    · rw [if_neg h]
      simp [h]

/-! ### The channel -/

structure Inv (s : St) : Prop where
  cap : s.queue.length ≤ CAP
  sub : (s.posted ++ s.posting.toList ++ s.queue).Sublist s.exported

theorem step_inv (s : St) (a : Act) (h : Inv s) : Inv (step s a) := by
  obtain ⟨h1, h2⟩ := h
  cases a with
  | record m => exact ⟨h1, h2⟩
  | doExport =>
    show Inv (doExport s)
    unfold doExport
    dsimp only
    split_ifs with hc
    · refine ⟨by dsimp only; rw [List.length_append, List.length_singleton]; omega, ?_⟩
      dsimp only
      rw [← List.append_assoc]
      exact h2.append (List.Sublist.refl _)
    · exact ⟨h1, h2.trans (List.sublist_append_left _ _)⟩
  | take =>
    show Inv (take s)
    unfold take
    cases hp : s.posting with
    | some p =>
      cases hq : s.queue with
      | nil => exact ⟨h1, h2⟩
      | cons q qs => exact ⟨h1, h2⟩
    | none =>
      cases hq : s.queue with
      | nil => exact ⟨h1, h2⟩
      | cons q qs =>
        rw [hp, hq] at h2
        rw [hq, List.length_cons] at h1
        refine ⟨by dsimp only; omega, ?_⟩
        simpa using h2
  | done =>
    show Inv (done s)
    unfold done
    cases hp : s.posting with
    | none => exact ⟨h1, h2⟩
    | some p =>
      rw [hp] at h2
      refine ⟨h1, ?_⟩
      simpa using h2

theorem run_inv (as : List Act) : Inv (run as) := by
  have key : ∀ (as : List Act) (s : St), Inv s → Inv (as.foldl step s) := by
    intro as
    induction as with
    | nil => intro s h; exact h
    | cons a as ih => intro s h; exact ih _ (step_inv s a h)
  exact key as _ ⟨Nat.zero_le _, List.Sublist.refl _⟩

/-- **Snapshots are posted in order, each at most once, and never invented.** -/
theorem posted_in_order (as : List Act) : (run as).posted.Sublist (run as).exported ∧ (close (run as)).posted.Sublist (run as).exported := by
  have h := (run_inv as).sub
  refine ⟨?_, h⟩
  rw [List.append_assoc] at h
  exact (List.sublist_append_left _ _).trans h

/-- **Memory is bounded**: at most four snapshots wait, and one is being posted. -/
theorem queue_bounded (as : List Act) : (run as).queue.length ≤ 4 := (run_inv as).cap

/-- **An export is dropped only if four wait.** Otherwise it is posted, at the latest when the manager is dropped. -/
theorem export_kept (as : List Act) (rest : List Act) (h : (run as).queue.length < 4) :
    (run as).metrics ∈ (close (run (as ++ Act.doExport :: rest))).posted := by
  have hstep : ∀ (s : St) (a : Act) (x : List Metric), x ∈ (close s).posted → x ∈ (close (step s a)).posted := by
    intro s a x hx
    unfold close at hx ⊢
    dsimp only at hx ⊢
    cases a with
    | record m => exact hx
    | doExport =>
      show x ∈ (doExport s).posted ++ (doExport s).posting.toList ++ (doExport s).queue
      unfold doExport
      dsimp only
      split_ifs
      · dsimp only
        rw [← List.append_assoc]
        exact List.mem_append_left _ hx
      · exact hx
    | take =>
      show x ∈ (take s).posted ++ (take s).posting.toList ++ (take s).queue
      unfold take
      cases hp : s.posting with
      | some p =>
        cases hq : s.queue with
        | nil => dsimp only; rw [hq] at hx; exact hx
        | cons q qs => dsimp only; rw [hq] at hx; exact hx
      | none =>
        cases hq : s.queue with
        | nil => dsimp only; exact hx
        | cons q qs =>
          rw [hp, hq] at hx
          dsimp only
          simpa using hx
    | done =>
      show x ∈ (done s).posted ++ (done s).posting.toList ++ (done s).queue
      unfold done
      cases hp : s.posting with
      | none => dsimp only; exact hx
      | some p =>
        rw [hp] at hx
        dsimp only
        simpa using hx
  have key : ∀ (as : List Act) (s : St) (x : List Metric), x ∈ (close s).posted → x ∈ (close (as.foldl step s)).posted := by
    intro as
    induction as with
    | nil => intro s x h; exact h
    | cons a as ih => intro s x h; exact ih _ x (hstep s a x h)
  unfold run
  rw [List.foldl_append, List.foldl_cons]
  apply key
  show (as.foldl step St.new).metrics ∈ (close (doExport (as.foldl step St.new))).posted
  have h' : (as.foldl step St.new).queue.length < CAP := h
  unfold doExport
  dsimp only
  rw [if_pos h']
  unfold close
  dsimp only
  exact List.mem_append_right _ (List.mem_append_right _ List.mem_cons_self)

/-! ### Findings -/

/-- **Only the last node is exported.** The metrics of the nodes have one name and different labels, and the map is keyed by name: of
all nodes the snapshot holds the last. -/
theorem only_last_node (s : St) (nodes : List (Nat × Nat × Nat)) (n : Nat × Nat × Nat) :
    (recordNodes s (nodes ++ [n])).metrics.filter (·.name == COUNT) = [⟨COUNT, some n.1, n.2.2⟩] ∧
    (recordNodes s (nodes ++ [n])).metrics.filter (·.name == AVG) = [⟨AVG, some n.1, n.2.1⟩] := by
  unfold recordNodes
  rw [List.foldl_append]
  simp only [List.foldl_cons, List.foldl_nil]
  constructor
  · rw [record_find, if_pos rfl]
  · rw [record_find, if_neg (show ¬ COUNT = AVG by decide), record_find, if_pos rfl]

/-- **The last snapshot can be the one that is lost**: with four waiting, the one exported at shutdown is dropped, and the caller is told
that all is well. -/
theorem final_snapshot_dropped : ∃ as, (run (as ++ [.record ⟨7, none, 1⟩, .doExport])).exported.getLast? = some [⟨7, none, 1⟩] ∧
    [⟨7, none, 1⟩] ∉ (close (run (as ++ [.record ⟨7, none, 1⟩, .doExport]))).posted := by
  exact ⟨[.doExport, .doExport, .doExport, .doExport], by decide, by decide⟩

example : (run [.record ⟨1, none, 5⟩, .doExport, .record ⟨1, none, 6⟩, .take, .doExport, .done]).posted = [[⟨1, none, 5⟩]] := by decide

end Horus.Telemetry
