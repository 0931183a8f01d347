import Verif.Actions.Model
import Verif.Ring.Common
import Mathlib.Tactic.Common
import Mathlib.Data.List.Nodup

/-!
The action client (horus_core/src/actions/client.rs): goal handles, the pump that drains the three
answer topics, waiting, metrics and callbacks.

Simplifications. The three answer topics are unbounded queues (their own behaviour is C30-C39). Results and
feedback are numbers. A pump takes no time: the clock, in milliseconds, advances only between pumps. The
server is any server that publishes a result before the terminal status of the goal, nothing after a
terminal status, and `Succeeded` only with a result (server.rs:688-727, 846-900; C61).
-/

namespace Horus.ActionClient
open Horus.Actions Horus.Ring

/-! ### Model -/

/-- `ClientGoalState` (client.rs:62-85); no status is `Pending`. -/
structure H where
  status : Option Status := none
  result : Option Nat := none
  feedback : Option Nat := none
  feedbackCount : Nat := 0
  updated : Nat := 0
  counted : Bool := false
  deriving DecidableEq, Repr

/-- `is_terminal` of a handle's status (types.rs:101-111). -/
def H.terminal (h : H) : Bool := h.status.any Status.terminal

/-- Where `process_messages` is (client.rs:388-414). -/
inductive Phase
  | idle | status | feedback | result
  deriving DecidableEq, Repr

/-- The client and the topics it reads. `sent`, `pubS`, `pubR` and the `…All` lists record what was
published; the `…Log` lists are the calls of the three callbacks. -/
structure St where
  now : Nat := 0
  sent : List Nat := []
  goals : List Nat := []
  h : Nat → Option H := fun _ => none
  statusQ : List (Nat × Status) := []
  feedbackQ : List (Nat × Nat) := []
  resultQ : List (Nat × Status × Nat) := []
  phase : Phase := .idle
  pubS : Nat → List Status := fun _ => []
  pubR : Nat → Option (Status × Nat) := fun _ => none
  statusAll : List (Nat × Status) := []
  feedbackAll : List (Nat × Nat) := []
  resultAll : List (Nat × Status × Nat) := []
  statusLog : List (Nat × Status) := []
  feedbackLog : List (Nat × Nat) := []
  resultLog : List (Nat × Status × Nat) := []
  goalsSent : Nat := 0
  succeeded : Nat := 0
  failed : Nat := 0

/-- `register_goal` (client.rs:513-517) and the counter (client.rs:670). -/
def register (s : St) (g : Nat) : St :=
  { s with h := upd s.h g (some { updated := s.now }), goals := g :: s.goals.filter (· ≠ g), goalsSent := s.goalsSent + 1 }

/-- Change a goal that is in the map. -/
def alter (s : St) (g : Nat) (f : H → H) : Nat → Option H :=
  if g ∈ s.goals then upd s.h g ((s.h g).map f) else s.h

/-- Does `sweep_stale_terminal_goals` keep the goal (client.rs:503-510)? -/
def fresh (now : Nat) (h : Option H) : Bool :=
  match h with
  | none => true
  | some h => !(h.terminal && 30000 < now - h.updated)

/-- `handle_status_update` (client.rs:417-453). -/
def onStatus (s : St) (g : Nat) (st : Status) : St :=
  let h := alter s g fun x => { x with status := some st, updated := s.now }
  let goals := if st = .rejected then s.goals.filter (· ≠ g) else s.goals
  { s with h := h, goals := goals.filter fun i => fresh s.now (h i), statusLog := s.statusLog ++ [(g, st)] }

/-- `handle_feedback` (client.rs:456-469). -/
def onFeedback (s : St) (g f : Nat) : St :=
  { s with h := alter s g fun x => { x with feedback := some f, feedbackCount := x.feedbackCount + 1, updated := s.now }
           feedbackLog := s.feedbackLog ++ [(g, f)] }

/-- `handle_result` (client.rs:472-494). -/
def onResult (s : St) (g : Nat) (st : Status) (r : Nat) : St :=
  { s with h := alter s g fun x => { x with result := some r, status := some st, updated := s.now }
           goals := if st.terminal then s.goals.filter (· ≠ g) else s.goals
           resultLog := s.resultLog ++ [(g, st, r)] }

/-- The goals whose outcome a tick counts (client.rs:769-771). -/
def countable (s : St) : List Nat :=
  s.goals.filter fun g => (s.h g).any fun h => h.terminal && !h.counted

/-- Did the goal succeed? -/
def won (s : St) (g : Nat) : Bool := (s.h g).any fun h => h.status == some .succeeded

/-- The counting of `tick` after the pump (client.rs:768-779). -/
def count (s : St) : St :=
  { s with h := fun g => if g ∈ countable s then (s.h g).map fun h => { h with counted := true } else s.h g
           succeeded := s.succeeded + ((countable s).filter fun g => won s g).length
           failed := s.failed + ((countable s).filter fun g => !won s g).length }

/-- What can happen. -/
inductive Act
  /-- `send_goal`: the request goes out and the goal is registered, with no pump in between. -/
  | sendGoal (g : Nat)
  /-- The request goes out (client.rs:667); another thread may pump before `register`. -/
  | send (g : Nat)
  | register (g : Nat)
  | pubStatus (g : Nat) (st : Status)
  | pubFeedback (g f : Nat)
  | pubResult (g : Nat) (st : Status) (r : Nat)
  /-- One step of the pump: the next message of the topic being drained, or the next topic. -/
  | pump
  | count
  | wait (ms : Nat)

/-- The server may publish this status. -/
def mayStatus (s : St) (g : Nat) (st : Status) : Bool :=
  s.sent.contains g && (s.pubS g).all (fun t => !t.terminal) &&
    (match s.pubR g with
     | some (st', _) => st == st'
     | none => st != .succeeded)

/-- The server may publish this result. -/
def mayResult (s : St) (g : Nat) (st : Status) : Bool :=
  s.sent.contains g && (s.pubS g).all (fun t => !t.terminal) && (s.pubR g).isNone && st.terminal && st != .rejected

/-- One step of `process_messages` (client.rs:388-414). -/
def pump (s : St) : St :=
  match s.phase with
  | .idle => { s with phase := .status }
  | .status =>
    match s.statusQ with
    | [] => { s with phase := .feedback }
    | (g, st) :: q => onStatus { s with statusQ := q } g st
  | .feedback =>
    match s.feedbackQ with
    | [] => { s with phase := .result }
    | (g, f) :: q => onFeedback { s with feedbackQ := q } g f
  | .result =>
    match s.resultQ with
    | [] => { s with phase := .idle }
    | (g, st, r) :: q => onResult { s with resultQ := q } g st r

/-- One step; `none` if it cannot happen. Goal ids are never reused (client.rs:365). -/
def step (a : Act) (s : St) : Option St :=
  match a with
  | .sendGoal g => if g ∈ s.sent then none else some (register { s with sent := g :: s.sent } g)
  | .send g => if g ∈ s.sent then none else some { s with sent := g :: s.sent }
  | .register g => if g ∈ s.sent ∧ s.h g = none then some (register s g) else none
  | .pubStatus g st =>
    if mayStatus s g st then
      some { s with pubS := upd s.pubS g (s.pubS g ++ [st]), statusQ := s.statusQ ++ [(g, st)], statusAll := s.statusAll ++ [(g, st)] }
    else none
  | .pubFeedback g f => some { s with feedbackQ := s.feedbackQ ++ [(g, f)], feedbackAll := s.feedbackAll ++ [(g, f)] }
  | .pubResult g st r =>
    if mayResult s g st then
      some { s with pubR := upd s.pubR g (some (st, r)), resultQ := s.resultQ ++ [(g, st, r)], resultAll := s.resultAll ++ [(g, st, r)] }
    else none
  | .pump => some (pump s)
  | .count => if s.phase = .idle then some (count s) else none
  | .wait ms => if s.phase = .idle then some { s with now := s.now + ms } else none

/-- A run. -/
def run : List Act → St → Option St
  | [], s => some s
  | a :: as, s => (step a s).bind (run as)

/-- What a waiter is told (`await_result_with_feedback`, client.rs:217-230, and `send_goal_and_wait`,
client.rs:824-835). -/
inductive Answer
  | ok (r : Nat) | missing | canceled | preempted | rejected | aborted
  deriving DecidableEq, Repr

/-- The answer to a waiter that looks at the handle now; `none` is to wait on. -/
def answer (h : H) : Option Answer :=
  match h.status with
  | none => none
  | some .active => none
  | some .succeeded => some (match h.result with | some r => .ok r | none => .missing)
  | some .canceled => some .canceled
  | some .preempted => some .preempted
  | some .rejected => some .rejected
  | some .aborted => some .aborted

/-- `await_result` (client.rs:165-182) at the same moment. -/
def awaited (h : H) : Option (Option Nat) := if h.terminal then some h.result else none

/-- One look of a waiter at the feedback (client.rs:208-214): what its callback is called with, and the
count it remembers. -/
def look (h : H) (last : Nat) : Option Nat × Nat :=
  if last < h.feedbackCount then (h.feedback, h.feedbackCount) else (none, last)

/-- So many steps of the pump. -/
def pumps : Nat → St → St
  | 0, s => s
  | n + 1, s => pumps n (pump s)

/-- A whole `process_messages` when nothing arrives meanwhile (client.rs:388-414). -/
def processMessages (s : St) : St :=
  pumps (s.statusQ.length + s.feedbackQ.length + s.resultQ.length + 4) s

/-! ### Specification -/

/-- A client pumped by one thread, which also sends the goals. -/
def OneThread (as : List Act) : Prop := ∀ a ∈ as, (∀ g, a ≠ .send g) ∧ ∀ g, a ≠ .register g

/-- The answer that says what the server published about a goal. -/
inductive Verdict (s : St) (g : Nat) : Answer → Prop
  | ok {r : Nat} (h : s.pubR g = some (.succeeded, r)) : Verdict s g (.ok r)
  | canceled (h : .canceled ∈ s.pubS g ∨ ∃ r, s.pubR g = some (.canceled, r)) : Verdict s g .canceled
  | preempted (h : .preempted ∈ s.pubS g ∨ ∃ r, s.pubR g = some (.preempted, r)) : Verdict s g .preempted
  | rejected (h : .rejected ∈ s.pubS g) : Verdict s g .rejected
  | aborted (h : .aborted ∈ s.pubS g ∨ ∃ r, s.pubR g = some (.aborted, r)) : Verdict s g .aborted

/-- The server has said its last word about a goal. -/
def Decided (s : St) (g : Nat) : Prop := (∃ st ∈ s.pubS g, st.terminal = true) ∨ s.pubR g ≠ none

/-! ### Invariant of a client with one thread -/

/-- Statuses of a goal still in the topic. -/
def queued (s : St) (g : Nat) : List Status := (s.statusQ.filter (·.1 = g)).map (·.2)

/-- What the server's discipline gives. -/
structure Disc (s : St) : Prop where
  last : ∀ g, ∀ pre st post, s.pubS g = pre ++ st :: post → st.terminal = true → post = []
  res : ∀ g st r, s.pubR g = some (st, r) → st.terminal = true ∧ st ≠ .rejected ∧ ∀ t ∈ s.pubS g, t.terminal = true → t = st
  succ : ∀ g, .succeeded ∈ s.pubS g → ∃ r, s.pubR g = some (.succeeded, r)
  unsent : ∀ g, g ∉ s.sent → s.pubS g = [] ∧ s.pubR g = none
  resq : ∀ g st r, (g, st, r) ∈ s.resultQ → s.pubR g = some (st, r)
  resNodup : (s.resultQ.map (·.1)).Nodup
  queue : ∀ g, queued s g <:+ s.pubS g

/-- What the client knows about a goal. -/
structure Known (s : St) (g : Nat) (h : H) : Prop where
  split : ∃ pre, s.pubS g = pre ++ queued s g ∧ (h.result = none → h.status = pre.getLast?)
  got : ∀ r, h.result = some r → ∃ st, h.status = some st ∧ s.pubR g = some (st, r) ∧ g ∉ s.goals ∧ g ∉ s.resultQ.map (·.1)
  mapped : h.result = none → g ∈ s.goals ∨ (h.terminal = true ∧ s.pubR g = none)
  waiting : h.result = none → ∀ st r, s.pubR g = some (st, r) →
    (g, st, r) ∈ s.resultQ ∧ g ∈ s.goals ∧ (h.terminal = true → h.updated = s.now ∧ s.phase ≠ .idle)

structure Inv (s : St) : Prop where
  disc : Disc s
  reg : ∀ g, s.h g = none ↔ g ∉ s.sent
  known : ∀ g h, s.h g = some h → Known s g h
  goals : ∀ g ∈ s.goals, g ∈ s.sent

theorem inv_init : Inv {} := by
  refine ⟨⟨?_, ?_, ?_, ?_, ?_, ?_, ?_⟩, ?_, ?_, ?_⟩ <;> intros <;> simp_all [queued]

theorem inv_sendGoal {s : St} (hi : Inv s) {g : Nat} (hg : g ∉ s.sent) : Inv (register { s with sent := g :: s.sent } g) := by
  have hu := hi.disc.unsent g hg
  have hr : g ∉ s.resultQ.map (·.1) := by
    intro h
    obtain ⟨⟨g', st, r⟩, h1, h2⟩ := List.mem_map.mp h
    simp only at h2; subst h2
    have := hi.disc.resq _ _ _ h1
    rw [hu.2] at this; cases this
  refine ⟨⟨hi.disc.last, hi.disc.res, hi.disc.succ, ?_, hi.disc.resq, hi.disc.resNodup, hi.disc.queue⟩, ?_, ?_, ?_⟩
  · intro i h
    exact hi.disc.unsent i fun hm => h (List.mem_cons_of_mem _ hm)
  · intro i
    show upd s.h g _ i = none ↔ i ∉ g :: s.sent
    by_cases e : i = g
    · subst e; simp
    · rw [upd_ne _ _ e, hi.reg i]; simp [e]
  · intro i h hh
    by_cases e : i = g
    · subst e
      have hh' : upd s.h i (some { updated := s.now }) i = some h := hh
      rw [upd_same] at hh'
      obtain rfl := Option.some.inj hh'
      have hq : queued s i = [] := by
        have := hi.disc.queue i
        rw [hu.1] at this
        exact List.suffix_nil.mp this
      constructor
      · exact ⟨[], by show s.pubS i = [] ++ queued s i; rw [hu.1, hq]; rfl, fun _ => rfl⟩
      · intro r hr; cases hr
      · intro _; left; simp [register]
      · intro _ st r hp
        have : s.pubR i = some (st, r) := hp
        rw [hu.2] at this; cases this
    · have hh' : upd s.h g (some { updated := s.now }) i = some h := hh
      rw [upd_ne _ _ e] at hh'
      have hk := hi.known i h hh'
      have hm : i ∈ (register { s with sent := g :: s.sent } g).goals ↔ i ∈ s.goals := by simp [register, e]
      exact ⟨hk.split, fun r hr => by obtain ⟨st, a, b, c, d⟩ := hk.got r hr; exact ⟨st, a, b, by rwa [hm], d⟩,
        fun hr => by rw [hm]; exact hk.mapped hr,
        fun hr st r hp => by obtain ⟨a, b, c⟩ := hk.waiting hr st r hp; exact ⟨a, by rwa [hm], c⟩⟩
  · intro i h
    simp only [register, List.mem_cons, List.mem_filter] at h ⊢
    rcases h with h | h
    · exact .inl h
    · exact .inr (hi.goals i h.1)

theorem mayStatus_iff {s : St} {g : Nat} {st : Status} :
    mayStatus s g st = true ↔ g ∈ s.sent ∧ (∀ t ∈ s.pubS g, t.terminal = false) ∧
      (∀ st' r, s.pubR g = some (st', r) → st = st') ∧ (s.pubR g = none → st ≠ .succeeded) := by
  unfold mayStatus
  cases h : s.pubR g with
  | none => simp [and_assoc]
  | some p => obtain ⟨st', r⟩ := p; simp [and_assoc]

theorem mayResult_iff {s : St} {g : Nat} {st : Status} :
    mayResult s g st = true ↔ g ∈ s.sent ∧ (∀ t ∈ s.pubS g, t.terminal = false) ∧ s.pubR g = none ∧ st.terminal = true ∧ st ≠ .rejected := by
  simp [mayResult, and_assoc]

theorem inv_pubStatus {s : St} (hi : Inv s) {g : Nat} {st : Status} (hm : mayStatus s g st = true) :
    Inv { s with pubS := upd s.pubS g (s.pubS g ++ [st]), statusQ := s.statusQ ++ [(g, st)], statusAll := s.statusAll ++ [(g, st)] } := by
  obtain ⟨h1, h2, h3, h4⟩ := mayStatus_iff.mp hm
  have hq : ∀ i, queued { s with pubS := upd s.pubS g (s.pubS g ++ [st]), statusQ := s.statusQ ++ [(g, st)], statusAll := s.statusAll ++ [(g, st)] } i
      = queued s i ++ if i = g then [st] else [] := by
    intro i
    by_cases e : i = g
    · subst e; simp [queued]
    · have e' : ¬ g = i := fun h => e h.symm
      simp [queued, e, e']
  refine ⟨⟨?_, ?_, ?_, ?_, hi.disc.resq, hi.disc.resNodup, ?_⟩, hi.reg, ?_, hi.goals⟩
  · intro i pre t post h ht
    replace h : upd s.pubS g (s.pubS g ++ [st]) i = pre ++ t :: post := h
    by_cases e : i = g
    · subst e
      rw [upd_same] at h
      rcases List.eq_nil_or_concat post with rfl | ⟨l, b, rfl⟩
      · rfl
      · have : s.pubS i = pre ++ t :: l := by
          have e2 : s.pubS i ++ [st] = (pre ++ t :: l) ++ [b] := by rw [h]; simp
          exact (List.append_inj' e2 rfl).1
        have := h2 t (by rw [this]; simp)
        rw [ht] at this; cases this
    · rw [upd_ne _ _ e] at h; exact hi.disc.last i pre t post h ht
  · intro i t r h
    replace h : s.pubR i = some (t, r) := h
    obtain ⟨a, b, c⟩ := hi.disc.res i t r h
    refine ⟨a, b, fun u hu ht => ?_⟩
    replace hu : u ∈ upd s.pubS g (s.pubS g ++ [st]) i := hu
    by_cases e : i = g
    · subst e
      rw [upd_same] at hu
      rcases List.mem_append.mp hu with hu | hu
      · exact c u hu ht
      · rw [List.mem_singleton.mp hu]; exact h3 t r h
    · rw [upd_ne _ _ e] at hu; exact c u hu ht
  · intro i h
    replace h : Status.succeeded ∈ upd s.pubS g (s.pubS g ++ [st]) i := h
    by_cases e : i = g
    · subst e
      rw [upd_same] at h
      rcases List.mem_append.mp h with h | h
      · exact hi.disc.succ i h
      · have hst := List.mem_singleton.mp h
        cases hp : s.pubR i with
        | none => exact absurd hst.symm (h4 hp)
        | some p => obtain ⟨t, r⟩ := p; exact ⟨r, by rw [hst, h3 t r hp]⟩
    · rw [upd_ne _ _ e] at h; exact hi.disc.succ i h
  · intro i h
    have hu := hi.disc.unsent i h
    have e : i ≠ g := fun e => h (e ▸ h1)
    exact ⟨by show upd s.pubS g _ i = []; rw [upd_ne _ _ e]; exact hu.1, hu.2⟩
  · intro i
    rw [hq]
    show _ <:+ upd s.pubS g (s.pubS g ++ [st]) i
    by_cases e : i = g
    · subst e
      rw [upd_same, if_pos rfl]
      obtain ⟨l, hl⟩ := hi.disc.queue i
      exact ⟨l, by rw [← hl]; simp⟩
    · rw [upd_ne _ _ e, if_neg e, List.append_nil]; exact hi.disc.queue i
  · intro i h hh
    have hk := hi.known i h hh
    refine ⟨?_, hk.got, hk.mapped, hk.waiting⟩
    obtain ⟨pre, hp, hs⟩ := hk.split
    refine ⟨pre, ?_, hs⟩
    rw [hq]
    show upd s.pubS g (s.pubS g ++ [st]) i = _
    by_cases e : i = g
    · subst e; rw [upd_same, if_pos rfl, hp]; simp
    · rw [upd_ne _ _ e, if_neg e, List.append_nil]; exact hp

/-- A goal the client knows to be over has a terminal status published, or a result. -/
theorem known_terminal {s : St} {g : Nat} {h : H} (hk : Known s g h) (ht : h.terminal = true) (hr : h.result = none) :
    ∃ st ∈ s.pubS g, st.terminal = true ∧ h.status = some st := by
  obtain ⟨pre, hp, hs⟩ := hk.split
  have e := hs hr
  unfold H.terminal at ht
  cases hst : h.status with
  | none => rw [hst] at ht; cases ht
  | some st =>
    rw [hst] at ht e
    exact ⟨st, by rw [hp]; exact List.mem_append_left _ (List.mem_of_getLast? e.symm), by simpa using ht, rfl⟩

theorem inv_pubResult {s : St} (hi : Inv s) {g : Nat} {st : Status} {r : Nat} (hm : mayResult s g st = true) :
    Inv { s with pubR := upd s.pubR g (some (st, r)), resultQ := s.resultQ ++ [(g, st, r)], resultAll := s.resultAll ++ [(g, st, r)] } := by
  obtain ⟨h1, h2, h3, h4, h5⟩ := mayResult_iff.mp hm
  have hnq : g ∉ s.resultQ.map (·.1) := by
    intro h
    obtain ⟨⟨g', t, r'⟩, a, b⟩ := List.mem_map.mp h
    simp only at b; subst b
    have := hi.disc.resq _ _ _ a
    rw [h3] at this; cases this
  refine ⟨⟨hi.disc.last, ?_, ?_, ?_, ?_, ?_, hi.disc.queue⟩, hi.reg, ?_, hi.goals⟩
  · intro i t r' h
    replace h : upd s.pubR g (some (st, r)) i = some (t, r') := h
    by_cases e : i = g
    · subst e
      rw [upd_same] at h
      obtain ⟨rfl, rfl⟩ := Prod.mk.inj (Option.some.inj h)
      exact ⟨h4, h5, fun u hu ht => absurd ht (by rw [h2 u hu]; decide)⟩
    · rw [upd_ne _ _ e] at h; exact hi.disc.res i t r' h
  · intro i h
    obtain ⟨r', hr'⟩ := hi.disc.succ i h
    have e : i ≠ g := by rintro rfl; rw [h3] at hr'; cases hr'
    exact ⟨r', by show upd s.pubR g _ i = _; rw [upd_ne _ _ e]; exact hr'⟩
  · intro i h
    have hu := hi.disc.unsent i h
    have e : i ≠ g := fun e => h (e ▸ h1)
    exact ⟨hu.1, by show upd s.pubR g _ i = none; rw [upd_ne _ _ e]; exact hu.2⟩
  · intro i t r' h
    show upd s.pubR g _ i = _
    rcases List.mem_append.mp h with h' | h
    · have e : i ≠ g := by rintro rfl; exact hnq (List.mem_map.mpr ⟨(i, t, r'), h', rfl⟩)
      rw [upd_ne _ _ e]; exact hi.disc.resq i t r' h'
    · obtain ⟨rfl, rfl, rfl⟩ : i = g ∧ t = st ∧ r' = r := by simpa using h
      rw [upd_same]
  · show ((s.resultQ ++ [(g, st, r)]).map (·.1)).Nodup
    rw [List.map_append, List.nodup_append]
    refine ⟨hi.disc.resNodup, by simp, ?_⟩
    intro a ha b hb
    obtain rfl : b = g := by simpa using hb
    rintro rfl; exact hnq ha
  · intro i h hh
    have hk := hi.known i h hh
    by_cases e : i = g
    · subst e
      have hres : h.result = none := by
        cases hr : h.result with
        | none => rfl
        | some x => obtain ⟨t, _, b, _⟩ := hk.got x hr; rw [h3] at b; cases b
      have hnt : h.terminal = false := by
        cases ht : h.terminal with
        | false => rfl
        | true => obtain ⟨t, a, b, _⟩ := known_terminal hk ht hres; rw [h2 t a] at b; cases b
      have hg : i ∈ s.goals := by
        rcases hk.mapped hres with h | ⟨h, _⟩
        · exact h
        · rw [hnt] at h; cases h
      refine ⟨hk.split, fun x hx => (by rw [hres] at hx; cases hx), fun _ => .inl hg, fun _ t r' hp => ?_⟩
      replace hp : upd s.pubR i (some (st, r)) i = some (t, r') := hp
      rw [upd_same] at hp
      obtain ⟨rfl, rfl⟩ := Prod.mk.inj (Option.some.inj hp)
      exact ⟨List.mem_append_right _ (by simp), hg, fun ht => absurd ht (by rw [hnt]; decide)⟩
    · have hR : upd s.pubR g (some (st, r)) i = s.pubR i := upd_ne _ _ e
      refine ⟨hk.split, ?_, ?_, ?_⟩
      · intro x hx
        obtain ⟨t, a, b, c, d⟩ := hk.got x hx
        refine ⟨t, a, by show upd s.pubR g _ i = _; rw [hR]; exact b, c, ?_⟩
        show i ∉ (s.resultQ ++ [(g, st, r)]).map (·.1)
        simp only [List.map_append, List.mem_append, not_or]
        exact ⟨d, by simpa using e⟩
      · intro hr
        rcases hk.mapped hr with h | ⟨h, h'⟩
        · exact .inl h
        · exact .inr ⟨h, by show upd s.pubR g _ i = _; rw [hR]; exact h'⟩
      · intro hr t r' hp
        replace hp : upd s.pubR g (some (st, r)) i = some (t, r') := hp
        rw [hR] at hp
        obtain ⟨a, b, c⟩ := hk.waiting hr t r' hp
        exact ⟨List.mem_append_left _ a, b, c⟩

theorem goals_onStatus {s : St} {g : Nat} {st : Status} {i : Nat} :
    i ∈ (onStatus s g st).goals ↔ i ∈ s.goals ∧ (st = .rejected → i ≠ g) ∧ fresh s.now ((onStatus s g st).h i) = true := by
  by_cases h : st = .rejected
  · simp only [onStatus, h, if_true, List.mem_filter, true_implies, decide_eq_true_eq, ne_eq, and_assoc]
  · simp [onStatus, h]

theorem h_onStatus_other {s : St} {g : Nat} {st : Status} {i : Nat} (h : i ≠ g ∨ g ∉ s.goals) : (onStatus s g st).h i = s.h i := by
  show alter s g _ i = _
  unfold alter
  split
  · rename_i hm
    rcases h with h | h
    · exact upd_ne _ _ h
    · exact absurd hm h
  · rfl

theorem h_onStatus_same {s : St} {g : Nat} {st : Status} (h : g ∈ s.goals) :
    (onStatus s g st).h g = (s.h g).map fun x => { x with status := some st, updated := s.now } := by
  show alter s g _ g = _
  unfold alter
  rw [if_pos h, upd_same]

theorem fresh_of {now : Nat} {h : H} (e : h.terminal = true → h.updated = now) : fresh now (some h) = true := by
  cases ht : h.terminal with
  | false => simp [fresh, ht]
  | true => simp [fresh, ht, e ht]

theorem inv_recvStatus {s : St} (hi : Inv s) {g : Nat} {st : Status} {q : List (Nat × Status)} (hph : s.phase = .status)
    (hq : s.statusQ = (g, st) :: q) : Inv (onStatus { s with statusQ := q } g st) := by
  have hqi : ∀ i, queued s i = (if i = g then [st] else []) ++ queued (onStatus { s with statusQ := q } g st) i := by
    intro i
    by_cases e : i = g
    · subst e; simp [queued, hq, onStatus]
    · have e' : ¬ g = i := fun h => e h.symm
      simp [queued, hq, onStatus, e, e']
  have hqg : queued s g = st :: queued (onStatus { s with statusQ := q } g st) g := by rw [hqi g]; simp
  have hstp : st ∈ s.pubS g := by
    obtain ⟨l, hl⟩ := hi.disc.queue g
    rw [← hl, hqg]; simp
  refine ⟨⟨hi.disc.last, hi.disc.res, hi.disc.succ, hi.disc.unsent, hi.disc.resq, hi.disc.resNodup, ?_⟩, ?_, ?_, ?_⟩
  · intro i
    refine List.IsSuffix.trans ⟨if i = g then [st] else [], ?_⟩ (hi.disc.queue i)
    exact (hqi i).symm
  · intro i
    refine Iff.trans ?_ (hi.reg i)
    by_cases e : i = g ∧ g ∈ s.goals
    · obtain ⟨rfl, hm⟩ := e
      rw [h_onStatus_same (s := { s with statusQ := q }) hm]; simp
    · rw [h_onStatus_other (s := { s with statusQ := q }) (by
        rcases Classical.em (i = g) with e1 | e1
        · exact .inr fun hm => e ⟨e1, hm⟩
        · exact .inl e1)]
  · intro i h hh
    by_cases e : i = g
    · subst e
      by_cases hm : i ∈ s.goals
      · have hh1 := hh
        rw [h_onStatus_same (s := { s with statusQ := q }) hm] at hh1
        obtain ⟨h0, hh0, rfl⟩ := Option.map_eq_some_iff.mp hh1
        replace hh0 : s.h i = some h0 := hh0
        have hk := hi.known i h0 hh0
        have hres : h0.result = none := by
          cases hr : h0.result with
          | none => rfl
          | some x => obtain ⟨_, _, _, c, _⟩ := hk.got x hr; exact absurd hm c
        have hgo : i ∈ (onStatus { s with statusQ := q } i st).goals ↔ st ≠ .rejected := by
          rw [goals_onStatus, hh]
          constructor
          · rintro ⟨_, b, _⟩ e; exact b e rfl
          · intro hne; exact ⟨hm, fun e => absurd e hne, fresh_of fun _ => rfl⟩
        obtain ⟨pre, hp, hs⟩ := hk.split
        constructor
        · refine ⟨pre ++ [st], ?_, fun _ => by simp⟩
          show s.pubS i = _
          rw [hp, hqg]; simp
        · intro r hr
          rw [show _ = h0.result from rfl, hres] at hr; cases hr
        · intro _
          rw [hgo]
          by_cases e : st = .rejected
          · right
            refine ⟨by simp [H.terminal, e, Status.terminal], ?_⟩
            show s.pubR i = none
            cases hR : s.pubR i with
            | none => rfl
            | some p =>
              obtain ⟨t, r⟩ := p
              obtain ⟨_, b, c⟩ := hi.disc.res i t r hR
              exact absurd (e ▸ c st hstp (by rw [e]; rfl)).symm b
          · exact .inl e
        · intro _ t r hR
          replace hR : s.pubR i = some (t, r) := hR
          obtain ⟨a, b, c⟩ := hk.waiting hres t r hR
          refine ⟨a, ?_, fun _ => ⟨rfl, ?_⟩⟩
          · rw [hgo]
            intro e
            obtain ⟨_, b, c⟩ := hi.disc.res i t r hR
            exact b (e ▸ c st hstp (by rw [e]; rfl)).symm
          · show s.phase ≠ .idle
            rw [hph]; decide
      · rw [h_onStatus_other (s := { s with statusQ := q }) (.inr hm)] at hh
        replace hh : s.h i = some h := hh
        have hk := hi.known i h hh
        obtain ⟨pre, hp, hs⟩ := hk.split
        have hgo : i ∉ (onStatus { s with statusQ := q } i st).goals := by
          rw [goals_onStatus]; exact fun h => hm h.1
        cases hr : h.result with
        | none =>
          rcases hk.mapped hr with h' | ⟨ht, hR⟩
          · exact absurd h' hm
          · exfalso
            have e := hs hr
            unfold H.terminal at ht
            cases hst : h.status with
            | none => rw [hst] at ht; cases ht
            | some t =>
              rw [hst] at ht e
              obtain ⟨l, hl⟩ := List.getLast?_eq_some_iff.mp e.symm
              have := hi.disc.last i l t (queued s i) (by rw [hp, hl]; simp) (by simpa using ht)
              rw [hqg] at this; cases this
        | some x =>
          refine ⟨⟨pre ++ [st], ?_, fun e => by rw [hr] at e; cases e⟩, ?_, fun e => ?_, fun e => ?_⟩
          · show s.pubS i = _
            rw [hp, hqg]; simp
          · intro r hr'
            obtain ⟨t, a, b, c, d⟩ := hk.got r hr'
            exact ⟨t, a, b, hgo, d⟩
          · rw [hr] at e; cases e
          · rw [hr] at e; cases e
    · have ho := h_onStatus_other (s := { s with statusQ := q }) (st := st) (g := g) (i := i) (.inl e)
      rw [ho] at hh
      replace hh : s.h i = some h := hh
      have hk := hi.known i h hh
      have hgo : i ∈ (onStatus { s with statusQ := q } g st).goals ↔ i ∈ s.goals ∧ fresh s.now (some h) = true := by
        rw [goals_onStatus, ho]
        show i ∈ s.goals ∧ _ ∧ fresh s.now (s.h i) = true ↔ _
        rw [hh]
        exact ⟨fun h => ⟨h.1, h.2.2⟩, fun h => ⟨h.1, fun _ => e, h.2⟩⟩
      obtain ⟨pre, hp, hs⟩ := hk.split
      constructor
      · refine ⟨pre, ?_, hs⟩
        show s.pubS i = _
        rw [hp, hqi i, if_neg e]; simp
      · intro r hr
        obtain ⟨t, a, b, c, d⟩ := hk.got r hr
        exact ⟨t, a, b, by rw [hgo]; exact fun h => c h.1, d⟩
      · intro hr
        rw [hgo]
        rcases hk.mapped hr with hm | h'
        · cases hf : fresh s.now (some h) with
          | true => exact .inl ⟨hm, rfl⟩
          | false =>
            right
            have ht : h.terminal = true := by
              cases ht : h.terminal with
              | true => rfl
              | false => simp [fresh, ht] at hf
            refine ⟨ht, ?_⟩
            show s.pubR i = none
            cases hR : s.pubR i with
            | none => rfl
            | some p =>
              obtain ⟨t, r⟩ := p
              obtain ⟨_, _, c⟩ := hk.waiting hr t r hR
              rw [fresh_of fun ht => (c ht).1] at hf; cases hf
        · exact .inr h'
      · intro hr t r hR
        obtain ⟨a, b, c⟩ := hk.waiting hr t r hR
        exact ⟨a, by rw [hgo]; exact ⟨b, fresh_of fun ht => (c ht).1⟩, c⟩
  · intro i h
    exact hi.goals i (goals_onStatus.mp h).1

/-- Changes of a handle the waiter cannot see keep the invariant. -/
theorem inv_handles {s : St} (hi : Inv s) (h' : Nat → Option H)
    (hn : ∀ i, h' i = none ↔ s.h i = none)
    (hs : ∀ i h1, h' i = some h1 → ∃ h0, s.h i = some h0 ∧ h1.status = h0.status ∧ h1.result = h0.result ∧ (h1.updated = h0.updated ∨ h1.updated = s.now)) :
    Inv { s with h := h' } := by
  refine ⟨⟨hi.disc.last, hi.disc.res, hi.disc.succ, hi.disc.unsent, hi.disc.resq, hi.disc.resNodup, hi.disc.queue⟩,
    fun i => (hn i).trans (hi.reg i), ?_, hi.goals⟩
  intro i h1 hh
  obtain ⟨h0, a, b, c, d⟩ := hs i h1 hh
  have hk := hi.known i h0 a
  have ht : h1.terminal = h0.terminal := by simp [H.terminal, b]
  obtain ⟨pre, hp, hl⟩ := hk.split
  refine ⟨⟨pre, hp, fun e => by rw [b]; exact hl (c ▸ e)⟩, fun r hr => ?_, fun e => ?_, fun e st r hR => ?_⟩
  · obtain ⟨t, p, q⟩ := hk.got r (c ▸ hr)
    exact ⟨t, by rw [b]; exact p, q⟩
  · rw [ht]; exact hk.mapped (c ▸ e)
  · obtain ⟨p, q, w⟩ := hk.waiting (c ▸ e) st r hR
    refine ⟨p, q, fun h => ?_⟩
    obtain ⟨w1, w2⟩ := w (ht ▸ h)
    exact ⟨by rcases d with d | d <;> rw [d]; exact w1, w2⟩

/-- What the invariant does not look at. -/
theorem inv_congr {s t : St} (hi : Inv s) (h1 : t.sent = s.sent) (h2 : t.goals = s.goals) (h3 : t.h = s.h) (h4 : t.statusQ = s.statusQ)
    (h5 : t.resultQ = s.resultQ) (h6 : t.pubS = s.pubS) (h7 : t.pubR = s.pubR)
    (h8 : (t.now = s.now ∧ t.phase ≠ .idle) ∨ s.phase = .idle ∨ s.resultQ = []) : Inv t := by
  have hq : ∀ g, queued t g = queued s g := fun g => by simp [queued, h4]
  obtain ⟨⟨d1, d2, d3, d4, d5, d6, d7⟩, r, k, gl⟩ := hi
  refine ⟨⟨by rwa [h6], by rwa [h6, h7], by rwa [h6, h7], by rwa [h1, h6, h7], by rwa [h5, h7], by rwa [h5], fun g => by rw [hq, h6]; exact d7 g⟩,
    by rwa [h1, h3], ?_, by rwa [h1, h2]⟩
  intro g h hh
  rw [h3] at hh
  obtain ⟨k1, k2, k3, k4⟩ := k g h hh
  refine ⟨by rwa [h6, hq], by rwa [h7, h2, h5], by rwa [h2, h7], ?_⟩
  intro hr st r hR
  rw [h7] at hR
  obtain ⟨a, b, c⟩ := k4 hr st r hR
  rw [h5, h2]
  refine ⟨a, b, fun ht => ?_⟩
  rcases h8 with ⟨e1, e2⟩ | e | e
  · rw [e1]; exact ⟨(c ht).1, e2⟩
  · exact absurd e (c ht).2
  · rw [e] at a; cases a

theorem inv_recvResult {s : St} (hi : Inv s) {g : Nat} {st : Status} {r : Nat} {q : List (Nat × Status × Nat)}
    (hq : s.resultQ = (g, st, r) :: q) : Inv (onResult { s with resultQ := q } g st r) := by
  have hR : s.pubR g = some (st, r) := hi.disc.resq g st r (by rw [hq]; simp)
  have ht := (hi.disc.res g st r hR).1
  have hnd := hi.disc.resNodup
  rw [hq] at hnd
  simp only [List.map_cons, List.nodup_cons] at hnd
  have hsent : g ∈ s.sent := by
    by_contra h
    rw [(hi.disc.unsent g h).2] at hR; cases hR
  obtain ⟨h0, hh0⟩ : ∃ h0, s.h g = some h0 := by
    cases h : s.h g with
    | none => exact absurd hsent ((hi.reg g).mp h)
    | some h0 => exact ⟨h0, rfl⟩
  have hk0 := hi.known g h0 hh0
  have hres : h0.result = none := by
    cases hr : h0.result with
    | none => rfl
    | some x => obtain ⟨_, _, _, _, d⟩ := hk0.got x hr; exact absurd (by rw [hq]; simp) d
  have hm : g ∈ s.goals := (hk0.waiting hres st r hR).2.1
  have hh : ∀ i, (onResult { s with resultQ := q } g st r).h i
      = if i = g then some { h0 with result := some r, status := some st, updated := s.now } else s.h i := by
    intro i
    show alter { s with resultQ := q } g _ i = _
    unfold alter
    rw [if_pos (show g ∈ s.goals from hm)]
    by_cases e : i = g
    · subst e; rw [upd_same, if_pos rfl]; show (s.h i).map _ = _; rw [hh0]; rfl
    · rw [upd_ne _ _ e, if_neg e]
  have hg : ∀ i, i ∈ (onResult { s with resultQ := q } g st r).goals ↔ i ∈ s.goals ∧ i ≠ g := by
    intro i; simp [onResult, ht]
  refine ⟨⟨hi.disc.last, hi.disc.res, hi.disc.succ, hi.disc.unsent, ?_, hnd.2, hi.disc.queue⟩, ?_, ?_, ?_⟩
  · intro i t r' h
    exact hi.disc.resq i t r' (by rw [hq]; exact List.mem_cons_of_mem _ h)
  · intro i
    rw [hh]
    by_cases e : i = g
    · rw [if_pos e]; subst e
      exact ⟨fun h => (by cases h), fun h => absurd hsent h⟩
    · rw [if_neg e]; exact hi.reg i
  · intro i h h1
    rw [hh] at h1
    by_cases e : i = g
    · rw [if_pos e] at h1
      subst e
      obtain rfl := Option.some.inj h1
      obtain ⟨pre, hp, _⟩ := hk0.split
      refine ⟨⟨pre, hp, fun e => (nomatch e)⟩, fun x hx => ?_, fun e => (nomatch e), fun e => (nomatch e)⟩
      obtain rfl := Option.some.inj hx
      exact ⟨st, rfl, hR, by rw [hg]; exact fun h => h.2 rfl, hnd.1⟩
    · rw [if_neg e] at h1
      have hk := hi.known i h h1
      refine ⟨hk.split, fun x hx => ?_, fun hr => ?_, fun hr t r' hp => ?_⟩
      · obtain ⟨t, a, b, c, d⟩ := hk.got x hx
        refine ⟨t, a, b, by rw [hg]; exact fun h => c h.1, fun h => d ?_⟩
        rw [hq]; exact List.mem_cons_of_mem _ h
      · rw [hg]
        rcases hk.mapped hr with h | h
        · exact .inl ⟨h, e⟩
        · exact .inr h
      · obtain ⟨a, b, c⟩ := hk.waiting hr t r' hp
        refine ⟨?_, by rw [hg]; exact ⟨b, e⟩, c⟩
        rw [hq] at a
        rcases List.mem_cons.mp a with a | a
        · exact absurd (Prod.mk.inj a).1 e
        · exact a
  · intro i h
    exact hi.goals i ((hg i).mp h).1

theorem inv_recvFeedback {s : St} (hi : Inv s) {g f : Nat} {q : List (Nat × Nat)} : Inv (onFeedback { s with feedbackQ := q } g f) := by
  have h1 := inv_handles hi (onFeedback { s with feedbackQ := q } g f).h (by
    intro i
    show alter { s with feedbackQ := q } g _ i = none ↔ _
    unfold alter
    split
    · by_cases e : i = g
      · subst e; rw [upd_same]; simp
      · rw [upd_ne _ _ e]
    · rfl) (by
    intro i h hh
    replace hh : alter { s with feedbackQ := q } g _ i = some h := hh
    unfold alter at hh
    split at hh
    · by_cases e : i = g
      · subst e
        rw [upd_same] at hh
        obtain ⟨h0, a, rfl⟩ := Option.map_eq_some_iff.mp hh
        exact ⟨h0, a, rfl, rfl, .inr rfl⟩
      · rw [upd_ne _ _ e] at hh; exact ⟨h, hh, rfl, rfl, .inl rfl⟩
    · exact ⟨h, hh, rfl, rfl, .inl rfl⟩)
  by_cases hp : s.phase = .idle
  · exact inv_congr h1 rfl rfl rfl rfl rfl rfl rfl (.inr (.inl hp))
  · exact inv_congr h1 rfl rfl rfl rfl rfl rfl rfl (.inl ⟨rfl, hp⟩)

theorem inv_pump {s : St} (hi : Inv s) : Inv (pump s) := by
  unfold pump
  split
  · exact inv_congr hi rfl rfl rfl rfl rfl rfl rfl (.inl ⟨rfl, by simp⟩)
  · rename_i hp
    split
    · exact inv_congr hi rfl rfl rfl rfl rfl rfl rfl (.inl ⟨rfl, by simp⟩)
    · rename_i hq; exact inv_recvStatus hi hp hq
  · split
    · exact inv_congr hi rfl rfl rfl rfl rfl rfl rfl (.inl ⟨rfl, by simp⟩)
    · exact inv_recvFeedback hi
  · split
    · rename_i hq; exact inv_congr hi rfl rfl rfl rfl rfl rfl rfl (.inr (.inr hq))
    · rename_i hq; exact inv_recvResult hi hq

theorem inv_count {s : St} (hi : Inv s) : Inv (count s) := by
  have h1 := inv_handles hi (count s).h (by
    intro i
    show (if i ∈ countable s then _ else _) = none ↔ _
    split <;> simp) (by
    intro i h hh
    replace hh : (if i ∈ countable s then (s.h i).map (fun h => { h with counted := true }) else s.h i) = some h := hh
    split at hh
    · obtain ⟨h0, a, rfl⟩ := Option.map_eq_some_iff.mp hh
      exact ⟨h0, a, rfl, rfl, .inl rfl⟩
    · exact ⟨h, hh, rfl, rfl, .inl rfl⟩)
  by_cases hp : s.phase = .idle
  · exact inv_congr h1 rfl rfl rfl rfl rfl rfl rfl (.inr (.inl hp))
  · exact inv_congr h1 rfl rfl rfl rfl rfl rfl rfl (.inl ⟨rfl, hp⟩)

theorem inv_step {s t : St} {a : Act} (ha : (∀ g, a ≠ .send g) ∧ ∀ g, a ≠ .register g) (hi : Inv s) (h : step a s = some t) : Inv t := by
  cases a with
  | sendGoal g =>
    simp only [step] at h
    split at h
    · cases h
    · rename_i hg; cases h; exact inv_sendGoal hi hg
  | send g => exact absurd rfl (ha.1 g)
  | register g => exact absurd rfl (ha.2 g)
  | pubStatus g st =>
    simp only [step] at h
    split at h
    · rename_i hg; cases h; exact inv_pubStatus hi hg
    · cases h
  | pubFeedback g f =>
    cases h
    by_cases hp : s.phase = .idle
    · exact inv_congr hi rfl rfl rfl rfl rfl rfl rfl (.inr (.inl hp))
    · exact inv_congr hi rfl rfl rfl rfl rfl rfl rfl (.inl ⟨rfl, hp⟩)
  | pubResult g st r =>
    simp only [step] at h
    split at h
    · rename_i hg; cases h; exact inv_pubResult hi hg
    · cases h
  | pump => cases h; exact inv_pump hi
  | count =>
    simp only [step] at h
    split at h
    · cases h; exact inv_count hi
    · cases h
  | wait ms =>
    simp only [step] at h
    split at h
    · rename_i hp; cases h; exact inv_congr hi rfl rfl rfl rfl rfl rfl rfl (.inr (.inl hp))
    · cases h

theorem run_induct {P : St → Prop} {Q : Act → Prop} (hs : ∀ a s t, Q a → P s → step a s = some t → P t) :
    ∀ (as : List Act) (s t : St), (∀ a ∈ as, Q a) → P s → run as s = some t → P t := by
  intro as
  induction as with
  | nil => intro s t _ hp h; cases h; exact hp
  | cons a as ih =>
    intro s t hq hp h
    obtain ⟨u, h1, h2⟩ := Option.bind_eq_some_iff.mp (show (step a s).bind (run as) = some t from h)
    exact ih u t (fun b hb => hq b (List.mem_cons_of_mem _ hb)) (hs a s u (hq a (by simp)) hp h1) h2

theorem inv_run {as : List Act} {s : St} (ho : OneThread as) (h : run as {} = some s) : Inv s :=
  run_induct (P := Inv) (Q := fun a => (∀ g, a ≠ .send g) ∧ ∀ g, a ≠ .register g) (fun _ _ _ hq hp h => inv_step hq hp h) as {} s ho inv_init h

/-! ### C121: a waiter is told what the server decided -/

theorem verdict_of_answer {s : St} (hi : Inv s) (hp : s.phase = .idle) {g : Nat} {h : H} (hh : s.h g = some h) {a : Answer}
    (ha : answer h = some a) : Verdict s g a := by
  have hk := hi.known g h hh
  cases hr : h.result with
  | some r =>
    obtain ⟨st, h1, h2, -, -⟩ := hk.got r hr
    obtain ⟨h3, h4, -⟩ := hi.disc.res g st r h2
    unfold answer at ha
    rw [h1, hr] at ha
    cases st <;> simp at ha h4 <;> subst ha
    · exact .ok h2
    · exact .aborted (.inr ⟨r, h2⟩)
    · exact .canceled (.inr ⟨r, h2⟩)
    · exact .preempted (.inr ⟨r, h2⟩)
  | none =>
    have ht : h.terminal = true := by
      unfold answer at ha
      unfold H.terminal
      split at ha <;> rename_i e <;> first | (rw [e]; rfl) | cases ha
    obtain ⟨st, h1, h2, h3⟩ := known_terminal hk ht hr
    unfold answer at ha
    rw [h3, hr] at ha
    cases st <;> simp at ha <;> subst ha
    · obtain ⟨r, hR⟩ := hi.disc.succ g h1
      exact absurd hp ((hk.waiting hr _ r hR).2.2 ht).2
    · exact .aborted (.inl h1)
    · exact .canceled (.inl h1)
    · exact .preempted (.inl h1)
    · exact .rejected h1

/-- C121. With one thread that sends and pumps, whatever a waiter is told after a pump is what the server
published about the goal; in particular it is never told that the result is missing. -/
theorem waiter_told_verdict {as : List Act} {s : St} (ho : OneThread as) (h : run as {} = some s) (hp : s.phase = .idle)
    {g : Nat} {x : H} (hh : s.h g = some x) {a : Answer} (ha : answer x = some a) : Verdict s g a :=
  verdict_of_answer (inv_run ho h) hp hh ha

/-- C121. The server's verdict on a goal is unique. -/
theorem verdict_unique {as : List Act} {s : St} (ho : OneThread as) (h : run as {} = some s) {g : Nat} {a b : Answer}
    (ha : Verdict s g a) (hb : Verdict s g b) : a = b := by
  have hd := (inv_run ho h).disc
  have key : ∀ t u : Status, t ∈ s.pubS g → u ∈ s.pubS g → t.terminal = true → u.terminal = true → t = u := by
    intro t u ht hu et eu
    obtain ⟨l, l', e⟩ := List.append_of_mem ht
    have := hd.last g l t l' e et
    subst this
    obtain ⟨m, m', e'⟩ := List.append_of_mem hu
    have := hd.last g m u m' e' eu
    subst this
    rw [e] at e'
    exact (List.cons.inj (List.append_inj' e' rfl).2).1
  have say : ∀ {a}, Verdict s g a → ∃ st, ((st ∈ s.pubS g ∧ st.terminal = true ∧ ∀ r, a ≠ .ok r) ∨ ∃ r, s.pubR g = some (st, r) ∧ ∀ r', a = .ok r' → r' = r) ∧
      (st = .succeeded ↔ ∃ r, a = .ok r) ∧ (st = .canceled ↔ a = .canceled) ∧ (st = .preempted ↔ a = .preempted) ∧ (st = .rejected ↔ a = .rejected) ∧
      (st = .aborted ↔ a = .aborted) ∧ st.terminal = true ∧ a ≠ .missing := by
    intro a ha
    cases ha with
    | ok h => exact ⟨.succeeded, .inr ⟨_, h, fun _ e => (Answer.ok.inj e).symm⟩, by simp, by simp, by simp, by simp, by simp, rfl, by simp⟩
    | canceled h =>
      refine ⟨.canceled, ?_, by simp, by simp, by simp, by simp, by simp, rfl, by simp⟩
      rcases h with h | ⟨r, h⟩
      · exact .inl ⟨h, rfl, by simp⟩
      · exact .inr ⟨r, h, by simp⟩
    | preempted h =>
      refine ⟨.preempted, ?_, by simp, by simp, by simp, by simp, by simp, rfl, by simp⟩
      rcases h with h | ⟨r, h⟩
      · exact .inl ⟨h, rfl, by simp⟩
      · exact .inr ⟨r, h, by simp⟩
    | rejected h => exact ⟨.rejected, .inl ⟨h, rfl, by simp⟩, by simp, by simp, by simp, by simp, by simp, rfl, by simp⟩
    | aborted h =>
      refine ⟨.aborted, ?_, by simp, by simp, by simp, by simp, by simp, rfl, by simp⟩
      rcases h with h | ⟨r, h⟩
      · exact .inl ⟨h, rfl, by simp⟩
      · exact .inr ⟨r, h, by simp⟩
  obtain ⟨st, h1, h2, h3, h4, h5, h6, h7, h8⟩ := say ha
  obtain ⟨tt, k1, k2, k3, k4, k5, k6, k7, k8⟩ := say hb
  have e : st = tt := by
    rcases h1 with ⟨p, q, _⟩ | ⟨r, p, _⟩ <;> rcases k1 with ⟨p', q', _⟩ | ⟨r', p', _⟩
    · exact key _ _ p p' q q'
    · exact (hd.res g tt r' p').2.2 st p q
    · exact ((hd.res g st r p).2.2 tt p' q').symm
    · rw [p] at p'; exact (Prod.mk.inj (Option.some.inj p')).1
  subst e
  cases st with
  | active => cases h7
  | succeeded =>
    obtain ⟨r, rfl⟩ := h2.mp rfl
    obtain ⟨r', rfl⟩ := k2.mp rfl
    rcases h1 with ⟨_, _, n⟩ | ⟨x, p, n⟩
    · exact absurd rfl (n r)
    · rcases k1 with ⟨_, _, n'⟩ | ⟨x', p', n'⟩
      · exact absurd rfl (n' r')
      · rw [p] at p'
        rw [n r rfl, n' r' rfl, (Prod.mk.inj (Option.some.inj p')).2]
  | canceled => rw [h3.mp rfl, k3.mp rfl]
  | preempted => rw [h4.mp rfl, k4.mp rfl]
  | rejected => rw [h5.mp rfl, k5.mp rfl]
  | aborted => rw [h6.mp rfl, k6.mp rfl]

theorem pumps_add (m n : Nat) (s : St) : pumps (m + n) s = pumps n (pumps m s) := by
  induction m generalizing s with
  | zero => simp [pumps]
  | succ m ih => rw [Nat.succ_add]; exact ih (pump s)

theorem inv_pumps {n : Nat} {s : St} (hi : Inv s) : Inv (pumps n s) := by
  induction n generalizing s with
  | zero => exact hi
  | succ n ih => exact ih (inv_pump hi)

/-- What the server did is not changed by the pump. -/
def Same (s t : St) : Prop := t.pubS = s.pubS ∧ t.pubR = s.pubR ∧ t.sent = s.sent

theorem pumps_status (s : St) (hp : s.phase = .status) :
    let t := pumps (s.statusQ.length + 1) s
    t.phase = .feedback ∧ t.statusQ = [] ∧ t.feedbackQ = s.feedbackQ ∧ t.resultQ = s.resultQ ∧ Same s t := by
  generalize hq : s.statusQ = q
  induction q generalizing s with
  | nil =>
    simp only [List.length_nil, pumps, pump, hp, hq]
    exact ⟨trivial, trivial, trivial, trivial, rfl, rfl, rfl⟩
  | cons x q ih =>
    obtain ⟨g, st⟩ := x
    have e : pump s = onStatus { s with statusQ := q } g st := by simp [pump, hp, hq]
    have := ih (pump s) (by rw [e]; exact hp) (by rw [e]; rfl)
    simp only [List.length_cons]
    rw [show q.length + 1 + 1 = (q.length + 1) + 1 from rfl, pumps]
    simp only [e] at this ⊢
    exact this

theorem pumps_feedback (s : St) (hp : s.phase = .feedback) :
    let t := pumps (s.feedbackQ.length + 1) s
    t.phase = .result ∧ t.statusQ = s.statusQ ∧ t.feedbackQ = [] ∧ t.resultQ = s.resultQ ∧ Same s t := by
  generalize hq : s.feedbackQ = q
  induction q generalizing s with
  | nil =>
    simp only [List.length_nil, pumps, pump, hp, hq]
    exact ⟨trivial, trivial, trivial, trivial, rfl, rfl, rfl⟩
  | cons x q ih =>
    obtain ⟨g, f⟩ := x
    have e : pump s = onFeedback { s with feedbackQ := q } g f := by simp [pump, hp, hq]
    have := ih (pump s) (by rw [e]; exact hp) (by rw [e]; rfl)
    simp only [List.length_cons]
    rw [show q.length + 1 + 1 = (q.length + 1) + 1 from rfl, pumps]
    simp only [e] at this ⊢
    exact this

theorem pumps_result (s : St) (hp : s.phase = .result) :
    let t := pumps (s.resultQ.length + 1) s
    t.phase = .idle ∧ t.statusQ = s.statusQ ∧ t.feedbackQ = s.feedbackQ ∧ t.resultQ = [] ∧ Same s t := by
  generalize hq : s.resultQ = q
  induction q generalizing s with
  | nil =>
    simp only [List.length_nil, pumps, pump, hp, hq]
    exact ⟨trivial, trivial, trivial, trivial, rfl, rfl, rfl⟩
  | cons x q ih =>
    obtain ⟨g, st, r⟩ := x
    have e : pump s = onResult { s with resultQ := q } g st r := by simp [pump, hp, hq]
    have := ih (pump s) (by rw [e]; exact hp) (by rw [e]; rfl)
    simp only [List.length_cons]
    rw [show q.length + 1 + 1 = (q.length + 1) + 1 from rfl, pumps]
    simp only [e] at this ⊢
    exact this

/-- `process_messages` ends with the three topics drained. -/
theorem process_drains (s : St) (hp : s.phase = .idle) :
    (processMessages s).phase = .idle ∧ (processMessages s).statusQ = [] ∧ (processMessages s).feedbackQ = [] ∧
      (processMessages s).resultQ = [] ∧ Same s (processMessages s) := by
  have e : processMessages s = pumps (s.resultQ.length + 1) (pumps (s.feedbackQ.length + 1) (pumps (s.statusQ.length + 1) (pump s))) := by
    unfold processMessages
    rw [← pumps_add, ← pumps_add, ← Nat.add_assoc, show s.statusQ.length + s.feedbackQ.length + s.resultQ.length + 4
      = (s.statusQ.length + 1 + (s.feedbackQ.length + 1) + (s.resultQ.length + 1)) + 1 by omega, pumps]
  have e0 : pump s = { s with phase := .status } := by simp [pump, hp]
  have a := pumps_status (pump s) (by rw [e0])
  simp only [e0] at a e
  generalize hA : pumps (s.statusQ.length + 1) { s with phase := .status } = A at a e
  obtain ⟨a1, a2, a3, a4, a5, a6, a7⟩ := a
  have b := pumps_feedback A a1
  rw [a3] at b
  generalize hB : pumps (s.feedbackQ.length + 1) A = B at b e
  obtain ⟨b1, b2, b3, b4, b5, b6, b7⟩ := b
  have c := pumps_result B b1
  rw [b4, a4] at c
  rw [e]
  generalize pumps (s.resultQ.length + 1) B = C at c
  obtain ⟨c1, c2, c3, c4, c5, c6, c7⟩ := c
  exact ⟨c1, by rw [c2, b2, a2], by rw [c3, b3], c4, by rw [c5, b5, a5], by rw [c6, b6, a6], by rw [c7, b7, a7]⟩

/-- C121. Once the server has decided a goal, the next pump tells the waiter. -/
theorem decided_goal_answered {as : List Act} {s : St} (ho : OneThread as) (h : run as {} = some s) (hp : s.phase = .idle)
    {g : Nat} (hd : Decided s g) :
    ∃ x a, (processMessages s).h g = some x ∧ answer x = some a ∧ Verdict s g a := by
  obtain ⟨p1, p2, -, p4, p5, p6, p7⟩ := process_drains s hp
  have hi : Inv (processMessages s) := inv_pumps (inv_run ho h)
  generalize processMessages s = t at *
  have hd' : Decided t g := by unfold Decided; rw [p5, p6]; exact hd
  have hs : g ∈ t.sent := by
    by_contra hn
    obtain ⟨e1, e2⟩ := hi.disc.unsent g hn
    rcases hd' with ⟨st, a, _⟩ | a
    · rw [e1] at a; cases a
    · exact a e2
  obtain ⟨x, hx⟩ : ∃ x, t.h g = some x := by
    cases h : t.h g with
    | none => exact absurd hs ((hi.reg g).mp h)
    | some x => exact ⟨x, rfl⟩
  have hk := hi.known g x hx
  have ht : x.terminal = true := by
    cases hr : x.result with
    | some r =>
      obtain ⟨st, a, b, -⟩ := hk.got r hr
      simp [H.terminal, a, (hi.disc.res g st r b).1]
    | none =>
      have hR : t.pubR g = none := by
        cases hR : t.pubR g with
        | none => rfl
        | some q =>
          obtain ⟨st, r⟩ := q
          have := (hk.waiting hr st r hR).1
          rw [p4] at this; cases this
      rcases hd' with ⟨st, a, b⟩ | a
      · obtain ⟨pre, e1, e2⟩ := hk.split
        have hq : queued t g = [] := by simp [queued, p2]
        rw [hq, List.append_nil] at e1
        obtain ⟨l, l', e⟩ := List.append_of_mem a
        have := hi.disc.last g l st l' e b
        subst this
        simp [H.terminal, e2 hr, ← e1, e, b]
      · exact absurd hR a
  obtain ⟨a, ha⟩ : ∃ a, answer x = some a := by
    unfold H.terminal at ht
    unfold answer
    cases hst : x.status with
    | none => rw [hst] at ht; cases ht
    | some st =>
      rw [hst] at ht
      cases st <;> simp [Status.terminal] at ht ⊢
  refine ⟨x, a, hx, ha, ?_⟩
  have hv := verdict_of_answer hi p1 hx ha
  cases hv with
  | ok h => exact .ok (by rwa [p6] at h)
  | canceled h => exact .canceled (by rwa [p5, p6] at h)
  | preempted h => exact .preempted (by rwa [p5, p6] at h)
  | rejected h => exact .rejected (by rwa [p5] at h)
  | aborted h => exact .aborted (by rwa [p5, p6] at h)

/-- C121. `await_result` after a pump returns the published result, and none only if there is none. -/
theorem await_result_true {as : List Act} {s : St} (ho : OneThread as) (h : run as {} = some s) (hp : s.phase = .idle)
    {g : Nat} {x : H} (hh : s.h g = some x) {r : Option Nat} (ha : awaited x = some r) : r = (s.pubR g).map (·.2) := by
  have hi := inv_run ho h
  have hk := hi.known g x hh
  unfold awaited at ha
  split at ha
  · rename_i ht
    cases ha
    cases hr : x.result with
    | some v => obtain ⟨st, _, b, _⟩ := hk.got v hr; rw [b]; rfl
    | none =>
      cases hR : s.pubR g with
      | none => rfl
      | some q => obtain ⟨st, v⟩ := q; exact absurd hp ((hk.waiting hr st v hR).2.2 ht).2
  · cases ha

/-- Nothing the client will receive changes this handle's status or result. -/
def Frozen (g : Nat) (st : Option Status) (r : Option Nat) (s : St) : Prop :=
  (∃ x, s.h g = some x ∧ x.status = st ∧ x.result = r) ∧ g ∈ s.sent ∧
    (g ∉ s.goals ∨ (queued s g = [] ∧ g ∉ s.resultQ.map (·.1) ∧ ∃ t ∈ s.pubS g, t.terminal = true))

theorem alter_keeps {s : St} {i g : Nat} {f : H → H} {st : Option Status} {r : Option Nat}
    (hf : i ≠ g ∨ g ∉ s.goals ∨ ∀ x, (f x).status = x.status ∧ (f x).result = x.result)
    (h : ∃ x, s.h g = some x ∧ x.status = st ∧ x.result = r) : ∃ x, alter s i f g = some x ∧ x.status = st ∧ x.result = r := by
  obtain ⟨x, h1, h2, h3⟩ := h
  unfold alter
  split
  · rename_i hm
    by_cases e : g = i
    · subst e
      rcases hf with hf | hf | hf
      · exact absurd rfl hf
      · exact absurd hm hf
      · exact ⟨f x, by rw [upd_same, h1]; rfl, by rw [(hf x).1, h2], by rw [(hf x).2, h3]⟩
    · rw [upd_ne _ _ e]; exact ⟨x, h1, h2, h3⟩
  · exact ⟨x, h1, h2, h3⟩

theorem frozen_pump {g : Nat} {st : Option Status} {r : Option Nat} {s : St} (h : Frozen g st r s) : Frozen g st r (pump s) := by
  obtain ⟨h1, h2, h3⟩ := h
  unfold pump
  split
  · exact ⟨h1, h2, h3⟩
  · split
    · exact ⟨h1, h2, h3⟩
    · rename_i i t q hq
      have hne : g ∉ s.goals ∨ i ≠ g := by
        rcases h3 with h3 | ⟨h3, _⟩
        · exact .inl h3
        · right; rintro rfl; simp [queued, hq] at h3
      refine ⟨alter_keeps (by tauto) h1, h2, ?_⟩
      rcases h3 with h3 | ⟨h3, h4⟩
      · left; rw [goals_onStatus]; exact fun h => h3 h.1
      · right
        refine ⟨?_, h4⟩
        simp only [queued, hq, List.map_eq_nil_iff, List.filter_eq_nil_iff] at h3 ⊢
        exact fun a ha => h3 a (List.mem_cons_of_mem _ ha)
  · split
    · exact ⟨h1, h2, h3⟩
    · exact ⟨alter_keeps (.inr (.inr fun _ => ⟨rfl, rfl⟩)) h1, h2, h3⟩
  · split
    · exact ⟨h1, h2, h3⟩
    · rename_i i t v q hq
      have hne : g ∉ s.goals ∨ i ≠ g := by
        rcases h3 with h3 | ⟨_, h3, _⟩
        · exact .inl h3
        · right; rintro rfl; simp [hq] at h3
      refine ⟨alter_keeps (by tauto) h1, h2, ?_⟩
      rcases h3 with h3 | ⟨h3, h4, h5⟩
      · left
        show g ∉ if t.terminal then s.goals.filter (· ≠ i) else s.goals
        split
        · exact fun h => h3 (List.mem_filter.mp h).1
        · exact h3
      · refine .inr ⟨h3, fun h => h4 ?_, h5⟩
        rw [hq]; exact List.mem_cons_of_mem _ h

theorem frozen_step {g : Nat} {st : Option Status} {r : Option Nat} {s t : St} {a : Act} (h : Frozen g st r s) (hs : step a s = some t) :
    Frozen g st r t := by
  have h0 := h
  obtain ⟨⟨x, e1, e2, e3⟩, h2, h3⟩ := h
  have reg : ∀ i, i ≠ g → ∀ l, g ∈ l → Frozen g st r (register { s with sent := l } i) := by
    intro i hi l hl
    refine ⟨⟨x, by show upd s.h i _ g = _; rw [upd_ne _ _ (Ne.symm hi)]; exact e1, e2, e3⟩, hl, ?_⟩
    rcases h3 with h3 | h3
    · left
      show g ∉ i :: s.goals.filter (· ≠ i)
      simp only [List.mem_cons, List.mem_filter, not_or]
      exact ⟨Ne.symm hi, fun h => h3 h.1⟩
    · exact .inr h3
  cases a with
  | sendGoal i =>
    simp only [step] at hs
    split at hs
    · cases hs
    · rename_i hi; cases hs
      exact reg i (fun e => hi (e ▸ h2)) _ (List.mem_cons_of_mem _ h2)
  | send i =>
    simp only [step] at hs
    split at hs
    · cases hs
    · cases hs; exact ⟨⟨x, e1, e2, e3⟩, List.mem_cons_of_mem _ h2, h3⟩
  | register i =>
    simp only [step] at hs
    split at hs
    · rename_i hi; cases hs
      exact reg i (by rintro rfl; rw [e1] at hi; cases hi.2) _ h2
    · cases hs
  | pubStatus i t =>
    simp only [step] at hs
    split at hs
    · rename_i hm; cases hs
      obtain ⟨-, m2, -⟩ := mayStatus_iff.mp hm
      refine ⟨⟨x, e1, e2, e3⟩, h2, ?_⟩
      rcases h3 with h3 | ⟨h3, h4, u, h5, h6⟩
      · exact .inl h3
      · have e : i ≠ g := by rintro rfl; rw [m2 u h5] at h6; cases h6
        refine .inr ⟨?_, h4, u, ?_, h6⟩
        · simp only [queued, List.filter_append, List.map_append, List.append_eq_nil_iff]
          exact ⟨h3, by simp [e]⟩
        · show u ∈ upd s.pubS i _ g
          rw [upd_ne _ _ (Ne.symm e)]; exact h5
    · cases hs
  | pubFeedback i f => cases hs; exact h0
  | pubResult i t v =>
    simp only [step] at hs
    split at hs
    · rename_i hm; cases hs
      obtain ⟨-, m2, -⟩ := mayResult_iff.mp hm
      refine ⟨⟨x, e1, e2, e3⟩, h2, ?_⟩
      rcases h3 with h3 | ⟨h3, h4, u, h5, h6⟩
      · exact .inl h3
      · have e : i ≠ g := by rintro rfl; rw [m2 u h5] at h6; cases h6
        refine .inr ⟨h3, ?_, u, h5, h6⟩
        simp only [List.map_append, List.mem_append, not_or]
        exact ⟨h4, by simpa using Ne.symm e⟩
    · cases hs
  | pump => cases hs; exact frozen_pump h0
  | count =>
    simp only [step] at hs
    split at hs
    · cases hs
      refine ⟨?_, h2, h3⟩
      show ∃ y, (if g ∈ countable s then (s.h g).map (fun h => { h with counted := true }) else s.h g) = some y ∧ _
      split
      · exact ⟨{ x with counted := true }, by rw [e1]; rfl, e2, e3⟩
      · exact ⟨x, e1, e2, e3⟩
    · cases hs
  | wait ms =>
    simp only [step] at hs
    split at hs
    · cases hs; exact h0
    · cases hs

theorem frozen_run {g : Nat} {st : Option Status} {r : Option Nat} {bs : List Act} {s t : St} (h : Frozen g st r s) (hr : run bs s = some t) :
    Frozen g st r t :=
  run_induct (P := Frozen g st r) (Q := fun _ => True) (fun _ _ _ _ hp hs => frozen_step hp hs) bs s t (fun _ _ => trivial) h hr

theorem answer_congr {x y : H} (h1 : x.status = y.status) (h2 : x.result = y.result) : answer x = answer y := by
  unfold answer; rw [h1, h2]

/-- C121. An answer never changes: not by later messages, goals, pumps of any thread, or time. -/
theorem answer_final {as bs : List Act} {s t : St} (ho : OneThread as) (h : run as {} = some s) (hp : s.phase = .idle)
    {g : Nat} {x : H} (hh : s.h g = some x) {a : Answer} (ha : answer x = some a) (ht : run bs s = some t) :
    ∃ y, t.h g = some y ∧ answer y = some a := by
  have hi := inv_run ho h
  have hk := hi.known g x hh
  have hs : g ∈ s.sent := by
    by_contra hn
    rw [(hi.reg g).mpr hn] at hh; cases hh
  have hf : Frozen g x.status x.result s := by
    refine ⟨⟨x, hh, rfl, rfl⟩, hs, ?_⟩
    cases hr : x.result with
    | some r => obtain ⟨_, _, _, c, _⟩ := hk.got r hr; exact .inl c
    | none =>
      right
      have htm : x.terminal = true := by
        unfold answer at ha
        unfold H.terminal
        split at ha <;> rename_i e <;> first | (rw [e]; rfl) | cases ha
      obtain ⟨st, h1, h2, h3⟩ := known_terminal hk htm hr
      have hR : s.pubR g = none := by
        cases hR : s.pubR g with
        | none => rfl
        | some q => obtain ⟨u, v⟩ := q; exact absurd hp ((hk.waiting hr u v hR).2.2 htm).2
      refine ⟨?_, ?_, st, h1, h2⟩
      · obtain ⟨pre, e1, e2⟩ := hk.split
        have e3 := e2 hr
        rw [h3] at e3
        obtain ⟨l, rfl⟩ := List.getLast?_eq_some_iff.mp e3.symm
        exact hi.disc.last g l st (queued s g) (by rw [e1]; simp) h2
      · intro hm
        obtain ⟨⟨g', u, v⟩, m1, m2⟩ := List.mem_map.mp hm
        simp only at m2; subst m2
        rw [hi.disc.resq _ _ _ m1] at hR; cases hR
  obtain ⟨⟨y, y1, y2, y3⟩, _⟩ := frozen_run hf ht
  exact ⟨y, y1, by rw [answer_congr y2 y3]; exact ha⟩

/-- The concrete runs of the examples and counterexamples. -/
def exDone : List Act :=
  [.sendGoal 0, .pubStatus 0 .active, .pubFeedback 0 4, .pump, .pump, .pump, .pump, .pump, .pump,
   .pubResult 0 .succeeded 7, .pubStatus 0 .succeeded, .pump, .pump, .pump, .pump, .pump, .pump]

example : OneThread exDone := by intro a ha; simp [exDone] at ha; rcases ha with rfl | rfl | rfl | rfl | rfl | rfl | rfl <;> simp

example : ∃ s x, run exDone {} = some s ∧ s.phase = .idle ∧ s.h 0 = some x ∧ answer x = some (.ok 7) ∧ awaited x = some (some 7) :=
  ⟨_, _, rfl, rfl, rfl, rfl, rfl⟩

/-- Negation, a disagreement with the code: the request is sent before the goal is registered
(client.rs:667-668), so when another thread pumps in between, an answer that is already there is dropped
and the waiter waits for ever, whatever happens next. -/
theorem answer_before_register_lost :
    ∃ as s, run as {} = some s ∧ s.phase = .idle ∧ s.pubR 0 = some (.succeeded, 7) ∧
      ∀ bs t, run bs s = some t → ∃ x, t.h 0 = some x ∧ answer x = none := by
  refine ⟨[.send 0, .pubResult 0 .succeeded 7, .pubStatus 0 .succeeded, .pump, .pump, .pump, .pump, .pump, .pump, .register 0], _, rfl, rfl, rfl, ?_⟩
  intro bs t ht
  have hf : Frozen 0 none none _ := frozen_run ⟨⟨_, rfl, rfl, rfl⟩, by decide, .inr ⟨rfl, by decide, .succeeded, by decide, rfl⟩⟩ ht
  obtain ⟨⟨y, y1, y2, _⟩, _⟩ := hf
  exact ⟨y, y1, by unfold answer; rw [y2]⟩

/-- Negation, a disagreement with the code: a waiter that looks while another thread is in the middle of a
pump, after the statuses and before the results, is told that the result is missing. -/
theorem missing_result_mid_pump :
    ∃ as s x, OneThread as ∧ run as {} = some s ∧ s.pubR 0 = some (.succeeded, 7) ∧ s.h 0 = some x ∧ answer x = some .missing := by
  refine ⟨[.sendGoal 0, .pubResult 0 .succeeded 7, .pubStatus 0 .succeeded, .pump, .pump], _, _, ?_, rfl, rfl, rfl, rfl⟩
  intro a ha
  simp at ha
  rcases ha with rfl | rfl | rfl | rfl <;> simp

/-! ### C122: the client's counters -/

theorem countP_insert {p : Nat → Bool} {g : Nat} {l : List Nat} (hn : l.Nodup) (hg : g ∈ l) (hp : p g = false) :
    l.countP (fun x => p x || x == g) = l.countP p + 1 := by
  induction l with
  | nil => cases hg
  | cons a l ih =>
    rw [List.nodup_cons] at hn
    rw [List.countP_cons, List.countP_cons]
    by_cases e : a = g
    · subst e
      have : l.countP (fun x => p x || x == a) = l.countP p := by
        refine List.countP_congr fun x hx => ?_
        have : x ≠ a := fun e => hn.1 (e ▸ hx)
        simp [this]
      rw [this, hp]; simp
    · have hg' : g ∈ l := by
        rcases List.mem_cons.mp hg with h | h
        · exact absurd h.symm e
        · exact h
      rw [ih hn.2 hg']
      have : (a == g) = false := by simpa using e
      rw [this, Bool.or_false]; omega

theorem countP_insertAll {p : Nat → Bool} {l : List Nat} (hn : l.Nodup) (m : List Nat) (hm : m.Nodup) (hs : ∀ x ∈ m, x ∈ l) (hp : ∀ x ∈ m, p x = false) :
    l.countP (fun x => p x || decide (x ∈ m)) = l.countP p + m.length := by
  induction m with
  | nil => simp
  | cons g m ih =>
    rw [List.nodup_cons] at hm
    have ih' := ih hm.2 (fun x hx => hs x (List.mem_cons_of_mem _ hx)) fun x hx => hp x (List.mem_cons_of_mem _ hx)
    have := countP_insert (p := fun x => p x || decide (x ∈ m)) (g := g) hn (hs g (by simp)) (by simp [hp g (by simp), hm.1])
    rw [ih'] at this
    rw [List.length_cons, ← Nat.add_assoc, ← this]
    refine List.countP_congr fun x _ => ?_
    simp only [List.mem_cons, Bool.or_eq_true, decide_eq_true_eq, beq_iff_eq]
    tauto

/-- Has the outcome of the goal been counted? -/
def isCounted (s : St) (g : Nat) : Bool := (s.h g).any (·.counted)

/-- Is the goal registered? -/
def isReg (s : St) (g : Nat) : Bool := (s.h g).isSome

structure Cnt (s : St) : Prop where
  sent : s.sent.Nodup
  goals : s.goals.Nodup
  sub : ∀ g ∈ s.goals, g ∈ s.sent
  reg : ∀ g, isReg s g = true → g ∈ s.sent
  counted : s.succeeded + s.failed = s.sent.countP (isCounted s)
  goalsSent : s.goalsSent = s.sent.countP (isReg s)

theorem cnt_congr {s t : St} (h : Cnt s) (h1 : t.sent = s.sent) (h2 : t.goals.Sublist s.goals) (h3 : ∀ g, isCounted t g = isCounted s g)
    (h4 : ∀ g, isReg t g = isReg s g) (h5 : t.succeeded = s.succeeded) (h6 : t.failed = s.failed) (h7 : t.goalsSent = s.goalsSent) : Cnt t := by
  have e3 : isCounted t = isCounted s := funext h3
  have e4 : isReg t = isReg s := funext h4
  exact ⟨by rw [h1]; exact h.sent, h.goals.sublist h2, fun g hg => by rw [h1]; exact h.sub g (h2.subset hg), fun g hg => by rw [h1]; rw [e4] at hg; exact h.reg g hg,
    by rw [h5, h6, h1, e3]; exact h.counted, by rw [h7, h1, e4]; exact h.goalsSent⟩

theorem alter_flags {s : St} {i : Nat} {f : H → H} (hf : ∀ x, (f x).counted = x.counted) (g : Nat) :
    (alter s i f g).any (·.counted) = (s.h g).any (·.counted) ∧ (alter s i f g).isSome = (s.h g).isSome := by
  unfold alter
  split
  · by_cases e : g = i
    · subst e; rw [upd_same]; cases s.h g <;> simp [hf]
    · rw [upd_ne _ _ e]; exact ⟨rfl, rfl⟩
  · exact ⟨rfl, rfl⟩

theorem cnt_register {s : St} (h : Cnt s) {g : Nat} (hg : g ∈ s.sent) (hn : s.h g = none) : Cnt (register s g) := by
  have c1 : ∀ i, isCounted (register s g) i = isCounted s i := by
    intro i
    show (upd s.h g _ i).any _ = (s.h i).any _
    by_cases e : i = g
    · subst e; rw [upd_same, hn]; rfl
    · rw [upd_ne _ _ e]
  have c2 : ∀ i, isReg (register s g) i = (isReg s i || i == g) := by
    intro i
    show (upd s.h g _ i).isSome = ((s.h i).isSome || i == g)
    by_cases e : i = g
    · subst e; rw [upd_same]; simp
    · rw [upd_ne _ _ e]; simp [e]
  refine ⟨h.sent, ?_, ?_, ?_, ?_, ?_⟩
  · show (g :: s.goals.filter (· ≠ g)).Nodup
    rw [List.nodup_cons]
    exact ⟨by simp, h.goals.filter _⟩
  · intro i hi
    rcases List.mem_cons.mp (show i ∈ g :: s.goals.filter (· ≠ g) from hi) with e | hi
    · exact e ▸ hg
    · exact h.sub i (List.mem_filter.mp hi).1
  · intro i hi
    rw [c2, Bool.or_eq_true] at hi
    rcases hi with hi | hi
    · exact h.reg i hi
    · exact (beq_iff_eq.mp hi) ▸ hg
  · rw [show isCounted (register s g) = isCounted s from funext c1]; exact h.counted
  · rw [show isReg (register s g) = fun i => isReg s i || i == g from funext c2]
    show s.goalsSent + 1 = s.sent.countP _
    rw [countP_insert h.sent hg (by simp [isReg, hn]), h.goalsSent]

theorem cnt_send {s : St} (h : Cnt s) {g : Nat} (hg : g ∉ s.sent) : Cnt { s with sent := g :: s.sent } := by
  have hr : isReg s g = false := by
    cases e : isReg s g with
    | false => rfl
    | true => exact absurd (h.reg g e) hg
  have hc : isCounted s g = false := by
    unfold isReg at hr
    unfold isCounted
    cases e : s.h g with
    | none => rfl
    | some x => rw [e] at hr; cases hr
  refine ⟨List.nodup_cons.mpr ⟨hg, h.sent⟩, h.goals, fun i hi => List.mem_cons_of_mem _ (h.sub i hi), fun i hi => List.mem_cons_of_mem _ (h.reg i hi), ?_, ?_⟩
  · show s.succeeded + s.failed = (g :: s.sent).countP (isCounted s)
    rw [List.countP_cons, hc]; simpa using h.counted
  · show s.goalsSent = (g :: s.sent).countP (isReg s)
    rw [List.countP_cons, hr]; simpa using h.goalsSent

theorem length_filter_split (p : Nat → Bool) (l : List Nat) : (l.filter p).length + (l.filter fun x => !p x).length = l.length := by
  induction l with
  | nil => rfl
  | cons a l ih => cases h : p a <;> simp [h] <;> omega

theorem cnt_count {s : St} (h : Cnt s) : Cnt (count s) := by
  have c1 : ∀ i, isCounted (count s) i = (isCounted s i || decide (i ∈ countable s)) := by
    intro i
    show (if i ∈ countable s then (s.h i).map (fun h => { h with counted := true }) else s.h i).any _ = _
    by_cases e : i ∈ countable s
    · have : ∃ x, s.h i = some x := by
        have := (List.mem_filter.mp e).2
        cases hx : s.h i with
        | none => rw [hx] at this; cases this
        | some x => exact ⟨x, rfl⟩
      obtain ⟨x, hx⟩ := this
      simp [e, hx]
    · simp [e, isCounted]
  have c2 : ∀ i, isReg (count s) i = isReg s i := by
    intro i
    show (if i ∈ countable s then (s.h i).map (fun h => { h with counted := true }) else s.h i).isSome = _
    split <;> simp [isReg]
  refine ⟨h.sent, h.goals, h.sub, fun i hi => h.reg i (c2 i ▸ hi), ?_, ?_⟩
  · rw [show isCounted (count s) = _ from funext c1]
    show s.succeeded + _ + (s.failed + _) = s.sent.countP _
    rw [countP_insertAll h.sent (countable s) (h.goals.filter _) (fun x hx => h.sub x (List.mem_filter.mp hx).1) ?_]
    · have e1 : ((countable s).filter fun g => won s g).length + ((countable s).filter fun g => !won s g).length = _ := length_filter_split (won s) (countable s)
      have e2 := h.counted
      rw [← e1, ← e2]
      omega
    · intro x hx
      have := (List.mem_filter.mp hx).2
      unfold isCounted
      cases hh : s.h x with
      | none => rfl
      | some y => rw [hh] at this; simp at this; simp [this.2]
  · rw [show isReg (count s) = isReg s from funext c2]; exact h.goalsSent

theorem cnt_alter {s t u : St} (h : Cnt s) {i : Nat} {f : H → H} (hu : u.h = s.h) (h0 : t.h = alter u i f) (hf : ∀ x, (f x).counted = x.counted)
    (h1 : t.sent = s.sent) (h2 : t.goals.Sublist s.goals) (h5 : t.succeeded = s.succeeded) (h6 : t.failed = s.failed)
    (h7 : t.goalsSent = s.goalsSent) : Cnt t :=
  cnt_congr h h1 h2 (fun g => by unfold isCounted; rw [h0, (alter_flags hf g).1, hu]) (fun g => by unfold isReg; rw [h0, (alter_flags hf g).2, hu]) h5 h6 h7

theorem cnt_pump {s : St} (h : Cnt s) : Cnt (pump s) := by
  unfold pump
  split
  · exact ⟨h.1, h.2, h.3, h.4, h.5, h.6⟩
  · split
    · exact ⟨h.1, h.2, h.3, h.4, h.5, h.6⟩
    · rename_i g st q _
      refine cnt_alter (u := { s with statusQ := q }) h rfl rfl (fun _ => rfl) rfl ?_ rfl rfl rfl
      refine List.Sublist.trans List.filter_sublist ?_
      split
      · exact List.filter_sublist
      · exact List.Sublist.refl _
  · split
    · exact ⟨h.1, h.2, h.3, h.4, h.5, h.6⟩
    · rename_i q _; exact cnt_alter (u := { s with feedbackQ := q }) h rfl rfl (fun _ => rfl) rfl (List.Sublist.refl _) rfl rfl rfl
  · split
    · exact ⟨h.1, h.2, h.3, h.4, h.5, h.6⟩
    · rename_i g st r q _
      refine cnt_alter (u := { s with resultQ := q }) h rfl rfl (fun _ => rfl) rfl ?_ rfl rfl rfl
      show (if st.terminal then s.goals.filter (· ≠ g) else s.goals).Sublist s.goals
      split
      · exact List.filter_sublist
      · exact List.Sublist.refl _

theorem cnt_step {s t : St} {a : Act} (h : Cnt s) (hs : step a s = some t) : Cnt t := by
  cases a with
  | sendGoal g =>
    simp only [step] at hs
    split at hs
    · cases hs
    · rename_i hg; cases hs
      refine cnt_register (cnt_send h hg) (by simp) ?_
      show s.h g = none
      cases e : s.h g with
      | none => rfl
      | some x => exact absurd (h.reg g (by simp [isReg, e])) hg
  | send g =>
    simp only [step] at hs
    split at hs
    · cases hs
    · rename_i hg; cases hs; exact cnt_send h hg
  | register g =>
    simp only [step] at hs
    split at hs
    · rename_i hg; cases hs; exact cnt_register h hg.1 hg.2
    · cases hs
  | pubStatus g st =>
    simp only [step] at hs
    split at hs
    · cases hs; exact ⟨h.1, h.2, h.3, h.4, h.5, h.6⟩
    · cases hs
  | pubFeedback g f => cases hs; exact ⟨h.1, h.2, h.3, h.4, h.5, h.6⟩
  | pubResult g st r =>
    simp only [step] at hs
    split at hs
    · cases hs; exact ⟨h.1, h.2, h.3, h.4, h.5, h.6⟩
    · cases hs
  | pump => cases hs; exact cnt_pump h
  | count =>
    simp only [step] at hs
    split at hs
    · cases hs; exact cnt_count h
    · cases hs
  | wait ms =>
    simp only [step] at hs
    split at hs
    · cases hs; exact ⟨h.1, h.2, h.3, h.4, h.5, h.6⟩
    · cases hs

theorem cnt_init : Cnt {} := ⟨by simp, by simp, by simp, fun g h => (nomatch h), rfl, rfl⟩

/-- C122. Whatever the threads do, no goal is counted twice: the outcomes counted are at most the goals
sent. -/
theorem outcomes_le_sent {as : List Act} {s : St} (h : run as {} = some s) : s.succeeded + s.failed ≤ s.goalsSent := by
  have hc := run_induct (P := Cnt) (Q := fun _ => True) (fun _ _ _ _ hp hs => cnt_step hp hs) as {} s (fun _ _ => trivial) cnt_init h
  rw [hc.counted, hc.goalsSent]
  refine List.countP_mono_left fun g _ hg => ?_
  unfold isCounted at hg
  unfold isReg
  cases e : s.h g with
  | none => rw [e] at hg; cases hg
  | some x => rfl

/-- C122. Counting again without news changes nothing. -/
theorem count_idempotent (s : St) : (count (count s)).succeeded = (count s).succeeded ∧ (count (count s)).failed = (count s).failed := by
  have : countable (count s) = [] := by
    refine List.filter_eq_nil_iff.mpr fun g hg => ?_
    replace hg : g ∈ s.goals := hg
    show ¬ ((if g ∈ countable s then (s.h g).map (fun h => { h with counted := true }) else s.h g).any fun h => h.terminal && !h.counted) = true
    by_cases e : g ∈ countable s
    · rw [if_pos e]; cases s.h g <;> simp
    · rw [if_neg e]
      intro h
      exact e (List.mem_filter.mpr ⟨hg, h⟩)
  have e : ∀ s, countable s = [] → (count s).succeeded = s.succeeded ∧ (count s).failed = s.failed := by
    intro s h; simp [count, h]
  exact e _ this

/-- An aborted goal without a result is counted. -/
example : ∃ s, run [.sendGoal 0, .pubStatus 0 .aborted, .pump, .pump, .pump, .pump, .pump, .count, .count] {} = some s ∧
    s.goalsSent = 1 ∧ s.failed = 1 ∧ s.succeeded = 0 := ⟨_, rfl, rfl, rfl, rfl⟩

theorem no_success_counted {s : St} (hi : Inv s) (hp : s.phase = .idle) : (countable s).filter (fun g => won s g) = [] := by
  refine List.filter_eq_nil_iff.mpr fun g hg hw => ?_
  have hm := (List.mem_filter.mp hg).1
  unfold won at hw
  cases hh : s.h g with
  | none => rw [hh] at hw; cases hw
  | some x =>
    rw [hh] at hw
    have hst : x.status = some .succeeded := by simpa using hw
    have hk := hi.known g x hh
    have hr : x.result = none := by
      cases hr : x.result with
      | none => rfl
      | some r => obtain ⟨_, _, _, c, _⟩ := hk.got r hr; exact absurd hm c
    have ht : x.terminal = true := by simp [H.terminal, hst, Status.terminal]
    obtain ⟨st, h1, _, h3⟩ := known_terminal hk ht hr
    rw [hst] at h3
    obtain rfl := Option.some.inj h3
    obtain ⟨r, hR⟩ := hi.disc.succ g h1
    exact absurd hp ((hk.waiting hr _ r hR).2.2 ht).2

/-- Negation, a disagreement with the code: the pump removes a goal from the map when its result arrives
(client.rs:491-493), before `tick` counts the goals in the map (client.rs:768-779), so a client node never
counts a success. -/
theorem successes_never_counted {as : List Act} {s : St} (ho : OneThread as) (h : run as {} = some s) : s.succeeded = 0 := by
  have := run_induct (P := fun s => Inv s ∧ s.succeeded = 0) (Q := fun a => (∀ g, a ≠ .send g) ∧ ∀ g, a ≠ .register g) (by
    intro a s t hq ⟨hi, h0⟩ hs
    refine ⟨inv_step hq hi hs, ?_⟩
    cases a with
    | count =>
      simp only [step] at hs
      split at hs
      · rename_i hp; cases hs
        show s.succeeded + _ = 0
        rw [no_success_counted hi hp, h0]; rfl
      · cases hs
    | pump =>
      cases hs
      unfold pump
      split
      · exact h0
      · split <;> exact h0
      · split <;> exact h0
      · split <;> exact h0
    | pubFeedback g f => cases hs; exact h0
    | _ =>
      simp only [step] at hs
      split at hs <;> first | cases hs; exact h0 | cases hs) as {} s ho ⟨inv_init, rfl⟩ h
  exact this.2

/-- Such a client, with a goal that succeeded. -/
example : ∃ s, run (exDone ++ [.count]) {} = some s ∧ s.pubR 0 = some (.succeeded, 7) ∧ s.goalsSent = 1 ∧ s.succeeded = 0 ∧ s.failed = 0 :=
  ⟨_, rfl, rfl, rfl, rfl, rfl⟩

/-- A goal that has left the map. -/
def Gone (g : Nat) (x : H) (s : St) : Prop := s.h g = some x ∧ g ∈ s.sent ∧ g ∉ s.goals

theorem alter_gone {s : St} {g i : Nat} {f : H → H} (h : g ∉ s.goals) : alter s i f g = s.h g := by
  unfold alter
  split
  · rename_i hm
    exact upd_ne _ _ (fun e => h (e ▸ hm))
  · rfl

theorem gone_step {g : Nat} {x : H} {s t : St} {a : Act} (h : Gone g x s) (hs : step a s = some t) : Gone g x t := by
  obtain ⟨h1, h2, h3⟩ := h
  have reg : ∀ i, i ≠ g → ∀ l, g ∈ l → Gone g x (register { s with sent := l } i) := by
    intro i hi l hl
    refine ⟨by show upd s.h i _ g = _; rw [upd_ne _ _ (Ne.symm hi)]; exact h1, hl, ?_⟩
    show g ∉ i :: s.goals.filter (· ≠ i)
    simp only [List.mem_cons, List.mem_filter, not_or]
    exact ⟨Ne.symm hi, fun h => h3 h.1⟩
  cases a with
  | sendGoal i =>
    simp only [step] at hs
    split at hs
    · cases hs
    · rename_i hi; cases hs
      exact reg i (fun e => hi (e ▸ h2)) _ (List.mem_cons_of_mem _ h2)
  | send i =>
    simp only [step] at hs
    split at hs
    · cases hs
    · cases hs; exact ⟨h1, List.mem_cons_of_mem _ h2, h3⟩
  | register i =>
    simp only [step] at hs
    split at hs
    · rename_i hi; cases hs
      exact reg i (by rintro rfl; rw [h1] at hi; cases hi.2) _ h2
    · cases hs
  | pubFeedback i f => cases hs; exact ⟨h1, h2, h3⟩
  | pump =>
    cases hs
    unfold pump
    split
    · exact ⟨h1, h2, h3⟩
    · split
      · exact ⟨h1, h2, h3⟩
      · exact ⟨(alter_gone h3).trans h1, h2, fun h => h3 (goals_onStatus.mp h).1⟩
    · split
      · exact ⟨h1, h2, h3⟩
      · exact ⟨(alter_gone h3).trans h1, h2, h3⟩
    · split
      · exact ⟨h1, h2, h3⟩
      · rename_i i u v q _
        refine ⟨(alter_gone h3).trans h1, h2, ?_⟩
        show g ∉ if u.terminal then s.goals.filter (· ≠ i) else s.goals
        split
        · exact fun h => h3 (List.mem_filter.mp h).1
        · exact h3
  | count =>
    simp only [step] at hs
    split at hs
    · cases hs
      refine ⟨?_, h2, h3⟩
      show (if g ∈ countable s then _ else s.h g) = _
      have hc : g ∉ countable s := fun h => h3 (List.mem_filter.mp h).1
      rw [if_neg hc]; exact h1
    · cases hs
  | pubStatus i u =>
    simp only [step] at hs
    split at hs
    · cases hs; exact ⟨h1, h2, h3⟩
    · cases hs
  | pubResult i u v =>
    simp only [step] at hs
    split at hs
    · cases hs; exact ⟨h1, h2, h3⟩
    · cases hs
  | wait ms =>
    simp only [step] at hs
    split at hs
    · cases hs; exact ⟨h1, h2, h3⟩
    · cases hs

/-- Negation, a disagreement with the code: a rejected goal leaves the map before it is counted, so it is
never counted as failed. -/
theorem rejected_never_counted :
    ∃ as s, OneThread as ∧ run as {} = some s ∧ .rejected ∈ s.pubS 0 ∧ s.goalsSent = 1 ∧ s.failed = 0 ∧
      ∀ bs t, run bs s = some t → isCounted t 0 = false := by
  refine ⟨[.sendGoal 0, .pubStatus 0 .rejected, .pump, .pump, .pump, .pump, .pump, .count], _, ?_, rfl, by decide, rfl, rfl, ?_⟩
  · intro a ha
    simp at ha
    rcases ha with rfl | rfl | rfl | rfl <;> simp
  · intro bs t ht
    have : Gone 0 _ t := run_induct (P := Gone 0 _) (Q := fun _ => True) (fun _ _ _ _ hp hs => gone_step hp hs) bs _ t (fun _ _ => trivial) ⟨rfl, by decide, by decide⟩ ht
    simp [isCounted, this.1]

/-! ### C123: callbacks -/

theorem pump_logs (s : St) : (pump s).statusLog ++ (pump s).statusQ = s.statusLog ++ s.statusQ ∧
    (pump s).feedbackLog ++ (pump s).feedbackQ = s.feedbackLog ++ s.feedbackQ ∧
    (pump s).resultLog ++ (pump s).resultQ = s.resultLog ++ s.resultQ ∧
    (pump s).statusAll = s.statusAll ∧ (pump s).feedbackAll = s.feedbackAll ∧ (pump s).resultAll = s.resultAll := by
  unfold pump
  split
  · exact ⟨rfl, rfl, rfl, rfl, rfl, rfl⟩
  · split
    · exact ⟨rfl, rfl, rfl, rfl, rfl, rfl⟩
    · rename_i h; simp [onStatus, h]
  · split
    · exact ⟨rfl, rfl, rfl, rfl, rfl, rfl⟩
    · rename_i h; simp [onFeedback, h]
  · split
    · exact ⟨rfl, rfl, rfl, rfl, rfl, rfl⟩
    · rename_i h; simp [onResult, h]

/-- C123. In every run, with any number of threads, the status, feedback and result callbacks have been
called once for each message taken from the topic, in the order of publication, and the messages not yet
delivered are those still in the topic. -/
theorem callbacks_in_order {as : List Act} {s : St} (h : run as {} = some s) :
    s.statusLog ++ s.statusQ = s.statusAll ∧ s.feedbackLog ++ s.feedbackQ = s.feedbackAll ∧ s.resultLog ++ s.resultQ = s.resultAll := by
  refine run_induct (P := fun s => s.statusLog ++ s.statusQ = s.statusAll ∧ s.feedbackLog ++ s.feedbackQ = s.feedbackAll ∧ s.resultLog ++ s.resultQ = s.resultAll)
    (Q := fun _ => True) ?_ as {} s (fun _ _ => trivial) ⟨rfl, rfl, rfl⟩ h
  intro a s t _ ⟨h1, h2, h3⟩ hs
  cases a with
  | pubFeedback g f => cases hs; exact ⟨h1, by show s.feedbackLog ++ (s.feedbackQ ++ _) = s.feedbackAll ++ _; rw [← h2]; simp, h3⟩
  | pump =>
    cases hs
    obtain ⟨a, b, c, d, e, f⟩ := pump_logs s
    rw [a, b, c, d, e, f]; exact ⟨h1, h2, h3⟩
  | pubStatus g st =>
    simp only [step] at hs
    split at hs
    · cases hs; exact ⟨by show s.statusLog ++ (s.statusQ ++ _) = s.statusAll ++ _; rw [← h1]; simp, h2, h3⟩
    · cases hs
  | pubResult g st r =>
    simp only [step] at hs
    split at hs
    · cases hs; exact ⟨h1, h2, by show s.resultLog ++ (s.resultQ ++ _) = s.resultAll ++ _; rw [← h3]; simp⟩
    · cases hs
  | _ =>
    simp only [step] at hs
    split at hs <;> first | cases hs; exact ⟨h1, h2, h3⟩ | cases hs

/-- C123. After a whole pump every published message has been given to its callback. -/
theorem callbacks_complete {as : List Act} {s : St} (h : run as {} = some s) (hp : s.phase = .idle) :
    (processMessages s).statusLog = s.statusAll ∧ (processMessages s).feedbackLog = s.feedbackAll ∧ (processMessages s).resultLog = s.resultAll := by
  obtain ⟨-, p2, p3, p4, -⟩ := process_drains s hp
  have : ∀ n s, (pumps n s).statusLog ++ (pumps n s).statusQ = s.statusLog ++ s.statusQ ∧ (pumps n s).feedbackLog ++ (pumps n s).feedbackQ = s.feedbackLog ++ s.feedbackQ ∧
      (pumps n s).resultLog ++ (pumps n s).resultQ = s.resultLog ++ s.resultQ := by
    intro n
    induction n with
    | zero => intro s; exact ⟨rfl, rfl, rfl⟩
    | succ n ih =>
      intro s
      obtain ⟨a, b, c, -⟩ := pump_logs s
      obtain ⟨a', b', c'⟩ := ih (pump s)
      exact ⟨a'.trans a, b'.trans b, c'.trans c⟩
  obtain ⟨a, b, c⟩ := this (s.statusQ.length + s.feedbackQ.length + s.resultQ.length + 4) s
  obtain ⟨d, e, f⟩ := callbacks_in_order h
  change (processMessages s).statusLog ++ (processMessages s).statusQ = _ at a
  change (processMessages s).feedbackLog ++ (processMessages s).feedbackQ = _ at b
  change (processMessages s).resultLog ++ (processMessages s).resultQ = _ at c
  rw [p2, List.append_nil, d] at a
  rw [p3, List.append_nil, e] at b
  rw [p4, List.append_nil, f] at c
  exact ⟨a, b, c⟩

example : ∃ s, run exDone {} = some s ∧ s.statusLog = [(0, .active), (0, .succeeded)] ∧ s.feedbackLog = [(0, 4)] ∧ s.resultLog = [(0, .succeeded, 7)] :=
  ⟨_, rfl, rfl, rfl, rfl⟩

/-- C123. What a waiter's own feedback callback is called with was published for its goal. -/
theorem waiter_feedback_published {as : List Act} {s : St} (h : run as {} = some s) {g : Nat} {x : H} (hh : s.h g = some x)
    {last f : Nat} (hl : (look x last).1 = some f) : (g, f) ∈ s.feedbackAll := by
  have hf : x.feedback = some f := by
    unfold look at hl
    split at hl
    · exact hl
    · cases hl
  have key : ∀ g x f, s.h g = some x → x.feedback = some f → (g, f) ∈ s.feedbackLog := by
    refine run_induct (P := fun s => ∀ g x f, s.h g = some x → x.feedback = some f → (g, f) ∈ s.feedbackLog) (Q := fun _ => True) ?_ as {} s
      (fun _ _ => trivial) (by intro g x f h; cases h) h
    intro a s t _ ih hs
    have alt : ∀ (s : St) i (u : H → H), (∀ x, (u x).feedback = x.feedback) → (∀ g x f, s.h g = some x → x.feedback = some f → (g, f) ∈ s.feedbackLog) →
        ∀ g x f, alter s i u g = some x → x.feedback = some f → (g, f) ∈ s.feedbackLog := by
      intro s i u hu ih g x f hx hxf
      unfold alter at hx
      split at hx
      · by_cases e : g = i
        · subst e
          rw [upd_same] at hx
          obtain ⟨y, hy, rfl⟩ := Option.map_eq_some_iff.mp hx
          exact ih g y f hy (by rw [← hu]; exact hxf)
        · rw [upd_ne _ _ e] at hx; exact ih g x f hx hxf
      · exact ih g x f hx hxf
    have reg : ∀ l i, ∀ g x f, (register { s with sent := l } i).h g = some x → x.feedback = some f → (g, f) ∈ s.feedbackLog := by
      intro l i g x f hx hxf
      replace hx : upd s.h i _ g = some x := hx
      by_cases e : g = i
      · subst e; rw [upd_same] at hx; cases hx; cases hxf
      · rw [upd_ne _ _ e] at hx; exact ih g x f hx hxf
    cases a with
    | sendGoal i =>
      simp only [step] at hs
      split at hs
      · cases hs
      · cases hs; exact reg _ i
    | register i =>
      simp only [step] at hs
      split at hs
      · cases hs; exact reg s.sent i
      · cases hs
    | pubFeedback i f => cases hs; exact ih
    | pump =>
      cases hs
      unfold pump
      split
      · exact ih
      · split
        · exact ih
        · exact alt { s with statusQ := _ } _ _ (fun _ => rfl) ih
      · split
        · exact ih
        · rename_i i v q _
          intro g x f hx hxf
          show (g, f) ∈ s.feedbackLog ++ [(i, v)]
          replace hx : alter { s with feedbackQ := q } i _ g = some x := hx
          unfold alter at hx
          split at hx
          · by_cases e : g = i
            · subst e
              rw [upd_same] at hx
              obtain ⟨y, hy, rfl⟩ := Option.map_eq_some_iff.mp hx
              obtain rfl := Option.some.inj hxf
              simp
            · rw [upd_ne _ _ e] at hx; exact List.mem_append_left _ (ih g x f hx hxf)
          · exact List.mem_append_left _ (ih g x f hx hxf)
      · split
        · exact ih
        · exact alt { s with resultQ := _ } _ _ (fun _ => rfl) ih
    | count =>
      simp only [step] at hs
      split at hs
      · cases hs
        intro g x f hx hxf
        replace hx : (if g ∈ countable s then (s.h g).map (fun h => { h with counted := true }) else s.h g) = some x := hx
        split at hx
        · obtain ⟨y, hy, rfl⟩ := Option.map_eq_some_iff.mp hx
          exact ih g y f hy hxf
        · exact ih g x f hx hxf
      · cases hs
    | _ =>
      simp only [step] at hs
      split at hs <;> first | cases hs; exact ih | cases hs
  obtain ⟨-, e, -⟩ := callbacks_in_order h
  rw [← e]
  exact List.mem_append_left _ (key g x f hh hf)

/-- Negation, a disagreement with the documentation ("Called for each new feedback message", client.rs:188):
a waiter that looks after each of its own pumps is called once for a pump that brought two messages, and
the first of them is never given to it. -/
theorem waiter_misses_feedback :
    ∃ as s x, OneThread as ∧ run as {} = some s ∧ s.phase = .idle ∧ s.h 0 = some x ∧ s.feedbackAll = [(0, 1), (0, 2)] ∧
      s.feedbackQ = [] ∧ look x 0 = (some 2, 2) ∧ (look x (look x 0).2).1 = none := by
  refine ⟨[.sendGoal 0, .pubFeedback 0 1, .pubFeedback 0 2, .pump, .pump, .pump, .pump, .pump, .pump], _, _, ?_, rfl, rfl, rfl, rfl, rfl, rfl, rfl⟩
  intro a ha
  simp at ha
  rcases ha with rfl | rfl | rfl | rfl <;> simp

end Horus.ActionClient
