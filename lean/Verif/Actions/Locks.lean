import Verif.Common.Locks

/-!
The locks of the action client (horus_core/src/actions/client.rs): which methods a callback may call, and
whether any number of threads sharing one client can hang each other.

Every method is the list of lock operations it performs, in order, with the callbacks of the user inlined as
the operations they perform. What depends on data (which messages are waiting, which goals are in the map,
how often a waiting loop goes round) is a parameter, so a statement about all parameters covers every run.

Simplifications. Sending on and receiving from a topic takes none of these locks and is no step. Sleeping is
no step: a thread that sleeps holds none of the locks (client.rs:178, 233, 838, 893).
-/

namespace Horus.ClientLocks
open Horus.Locks

/-! ### Model -/

/-- The locks of one client (client.rs:269-296) and of its goals (client.rs:274). -/
inductive Lock
  /-- `pump_lock` -/
  | pump
  | goalLink | cancelLink | resultLink | feedbackLink | statusLink
  /-- the map of goals -/
  | goals
  /-- the state of one goal -/
  | goal (g : Nat)
  | onFeedback | onResult | onStatus
  deriving DecidableEq, Repr

/-- The methods that run no callback. -/
inductive Basic
  /-- `cancel_goal`, `ClientGoalHandle::cancel` (client.rs:243-245, 379-385) -/
  | cancel
  /-- The getters of a handle: status, result, last_feedback, … (client.rs:100-147) -/
  | getter (g : Nat)
  /-- `goal_status` (client.rs:688-694); the goal may be missing from the map -/
  | goalStatus (g : Option Nat)
  /-- `active_goals`, `active_goal_count`, `metrics` (client.rs:697-726) -/
  | list (gs : List Nat)
  /-- `send_goal` (client.rs:360-376, 513-517, 662-679) -/
  | send
  deriving DecidableEq, Repr

/-- Reading some goals. -/
def reads (gs : List Nat) : List (Op Lock) := gs.flatMap fun g => hold (.goal g) .r []

/-- What a method that runs no callback does. -/
def Basic.ops : Basic → List (Op Lock)
  | .cancel => hold .cancelLink .r []
  | .getter g => hold (.goal g) .r []
  | .goalStatus g => hold .goals .r (reads g.toList)
  | .list gs => hold .goals .r (reads gs)
  | .send => hold .goalLink .r [] ++ hold .goals .w []

/-- Calls made one after another. -/
def many (bs : List Basic) : List (Op Lock) := bs.flatMap Basic.ops

/-- A message the pump takes: the goal, if it is in the map, and what the callback for it does. -/
structure Msg where
  goal : Option Nat := none
  /-- `Rejected` for a status, terminal for a result -/
  removes : Bool := false
  /-- the goals in the map when it is swept -/
  swept : List Nat := []
  cb : List (Op Lock) := []

/-- Writing to the goal of a message. -/
def write (m : Msg) : List (Op Lock) := m.goal.toList.flatMap fun g => hold (.goal g) .w []

/-- `handle_status_update` and `sweep_stale_terminal_goals` (client.rs:417-453, 503-510). -/
def statusOps (m : Msg) : List (Op Lock) :=
  hold .goals .r (write m) ++ (if m.removes then hold .goals .w [] else []) ++
    hold .goals .w (reads m.swept) ++ hold .onStatus .r m.cb

/-- `handle_feedback` (client.rs:456-469): the map stays locked while the callback runs. -/
def feedbackOps (m : Msg) : List (Op Lock) := hold .goals .r (write m ++ hold .onFeedback .r m.cb)

/-- `handle_result` (client.rs:472-494). -/
def resultOps (m : Msg) : List (Op Lock) :=
  hold .goals .r (write m) ++ hold .onResult .r m.cb ++ (if m.removes then hold .goals .w [] else [])

/-- What a pump finds. -/
structure Inbox where
  status : List Msg := []
  feedback : List Msg := []
  result : List Msg := []

/-- `process_messages` (client.rs:388-414). -/
def pumpOps (i : Inbox) : List (Op Lock) :=
  hold .pump .w (hold .statusLink .r (i.status.flatMap statusOps) ++ hold .feedbackLink .r (i.feedback.flatMap feedbackOps) ++
    hold .resultLink .r (i.result.flatMap resultOps))

/-- The methods of the client. -/
inductive Call
  | basic (b : Basic)
  /-- `initialize` (client.rs:321-355); nothing when it has been done -/
  | init (done : Bool)
  /-- `tick` (client.rs:760-781) -/
  | tick (i : Inbox) (gs : List Nat)
  /-- `await_result`: the rounds of its loop (client.rs:165-182) -/
  | await (g : Nat) (rounds : List Inbox)
  /-- `await_result_with_feedback`: the rounds, each with what the callback does (client.rs:191-237) -/
  | awaitFeedback (g : Nat) (rounds : List (Inbox × List (Op Lock)))
  /-- `send_goal_and_wait` (client.rs:807-844) -/
  | sendAndWait (g : Nat) (rounds : List Inbox) (timedOut : Bool)
  /-- `send_goal_and_wait_with_feedback` (client.rs:847-899) -/
  | sendAndWaitFeedback (g : Nat) (rounds : List (Inbox × List (Op Lock))) (timedOut : Bool)

/-- One round of a wait without a callback: pump, then look at the goal (client.rs:174-177, 820-836). -/
def round (g : Nat) (i : Inbox) : List (Op Lock) := pumpOps i ++ hold (.goal g) .r []

/-- One round of a wait with a callback, which runs while the goal is locked (client.rs:204-231, 863-891). -/
def roundFeedback (g : Nat) (x : Inbox × List (Op Lock)) : List (Op Lock) := pumpOps x.1 ++ hold (.goal g) .r x.2

/-- The end of a synchronous call: a time-out cancels the goal (client.rs:841, 896). -/
def giveUp (timedOut : Bool) : List (Op Lock) := if timedOut then Basic.cancel.ops else []

/-- What a method does. -/
def Call.ops : Call → List (Op Lock)
  | .basic b => b.ops
  | .init done =>
    if done then [] else hold .goalLink .w [] ++ hold .cancelLink .w [] ++ hold .resultLink .w [] ++
      hold .feedbackLink .w [] ++ hold .statusLink .w []
  | .tick i gs => pumpOps i ++ hold .goals .r (gs.flatMap fun g => hold (.goal g) .w [])
  | .await g rs => rs.flatMap (round g)
  | .awaitFeedback g rs => rs.flatMap (roundFeedback g)
  | .sendAndWait g rs t => Basic.send.ops ++ rs.flatMap (round g) ++ giveUp t
  | .sendAndWaitFeedback g rs t => Basic.send.ops ++ rs.flatMap (roundFeedback g) ++ giveUp t

/-! ### Threads -/

/-- The threads before they start: each makes some calls, one after another. -/
def start (calls : Nat → List Call) : St Lock := begin fun t => (calls t).flatMap Call.ops

/-! ### What callbacks may do -/

/-- The calls the feedback callback of a waiting call may make: cancel goals. -/
def Small (p : List (Op Lock)) : Prop := ∃ n : Nat, p = many (List.replicate n .cancel)

/-- The calls the feedback callback of the client may make: cancel goals and look at handles. -/
def Medium (p : List (Op Lock)) : Prop := ∃ bs : List Basic, (∀ b ∈ bs, b = .cancel ∨ ∃ g, b = .getter g) ∧ p = many bs

/-- The calls the status and the result callback may make: everything that does not pump. -/
def Large (p : List (Op Lock)) : Prop := ∃ bs : List Basic, p = many bs

/-- The callbacks a pump runs keep to that. -/
def Inbox.Good (i : Inbox) : Prop :=
  (∀ m ∈ i.status, Large m.cb) ∧ (∀ m ∈ i.feedback, Medium m.cb) ∧ (∀ m ∈ i.result, Large m.cb)

/-- The callbacks a call runs keep to that. -/
def Call.Good : Call → Prop
  | .basic _ => True
  | .init _ => True
  | .tick i _ => i.Good
  | .await _ rs => ∀ i ∈ rs, i.Good
  | .awaitFeedback _ rs => ∀ x ∈ rs, x.1.Good ∧ Small x.2
  | .sendAndWait _ rs _ => ∀ i ∈ rs, i.Good
  | .sendAndWaitFeedback _ rs _ => ∀ x ∈ rs, x.1.Good ∧ Small x.2

/-! ### The order of the locks -/

/-- A lock is only ever taken by a thread that holds none of its rank or above. -/
def rank : Lock → Nat
  | .pump => 0
  | .statusLink => 1
  | .feedbackLink => 1
  | .resultLink => 1
  | .onStatus => 2
  | .onResult => 2
  | .goals => 3
  | .onFeedback => 4
  | .goal _ => 5
  | .goalLink => 6
  | .cancelLink => 6

theorem bal_goals {h : List Lock} {m : Mode} {gs : List Nat} (hb : Below rank 5 h) : Bal rank h (gs.flatMap fun g => hold (.goal g) m []) :=
  bal_flatMap fun _ _ => bal_lock hb (by simp [rank]) fun _ => bal_nil _

theorem bal_basic {h : List Lock} (hb : Below rank 3 h) (b : Basic) : Bal rank h b.ops := by
  have h5 : Below rank 5 h := fun x hx => Nat.lt_trans (hb x hx) (by omega)
  have h6 : Below rank 6 h := fun x hx => Nat.lt_trans (hb x hx) (by omega)
  cases b with
  | cancel => exact bal_lock h6 (by simp [rank]) fun _ => bal_nil _
  | getter g => exact bal_lock h5 (by simp [rank]) fun _ => bal_nil _
  | goalStatus g =>
    exact bal_lock hb (by simp [rank]) fun hc => bal_goals fun x hx => Nat.lt_of_lt_of_le (hc x hx) (by simp [rank])
  | list gs =>
    exact bal_lock hb (by simp [rank]) fun hc => bal_goals fun x hx => Nat.lt_of_lt_of_le (hc x hx) (by simp [rank])
  | send => exact bal_append (bal_lock h6 (by simp [rank]) fun _ => bal_nil _) (bal_lock hb (by simp [rank]) fun _ => bal_nil _)

theorem bal_large {h : List Lock} (hb : Below rank 3 h) {p : List (Op Lock)} (hp : Large p) : Bal rank h p := by
  obtain ⟨bs, rfl⟩ := hp
  exact bal_flatMap fun b _ => bal_basic hb b

theorem bal_medium {h : List Lock} (hb : Below rank 5 h) {p : List (Op Lock)} (hp : Medium p) : Bal rank h p := by
  obtain ⟨bs, hbs, rfl⟩ := hp
  refine bal_flatMap fun b hx => ?_
  rcases hbs b hx with rfl | ⟨g, rfl⟩
  · exact bal_lock (n := 6) (fun x hx => Nat.lt_trans (hb x hx) (by omega)) (by simp [rank]) fun _ => bal_nil _
  · exact bal_lock hb (by simp [rank]) fun _ => bal_nil _

theorem bal_small {h : List Lock} (hb : Below rank 6 h) {p : List (Op Lock)} (hp : Small p) : Bal rank h p := by
  obtain ⟨n, rfl⟩ := hp
  refine bal_flatMap fun b hx => ?_
  rw [List.eq_of_mem_replicate hx]
  exact bal_lock hb (by simp [rank]) fun _ => bal_nil _

theorem bal_write {h : List Lock} (hb : Below rank 5 h) (m : Msg) : Bal rank h (write m) := bal_goals hb

theorem bal_status {h : List Lock} (hb : Below rank 2 h) {m : Msg} (hm : Large m.cb) : Bal rank h (statusOps m) := by
  have h3 : Below rank 3 h := fun x hx => Nat.lt_trans (hb x hx) (by omega)
  refine bal_append (bal_append (bal_append ?_ (bal_ite ?_ (bal_nil _))) ?_) ?_
  · exact bal_lock h3 (by simp [rank]) fun hc => bal_write (fun x hx => Nat.lt_of_lt_of_le (hc x hx) (by simp [rank])) m
  · exact bal_lock h3 (by simp [rank]) fun _ => bal_nil _
  · exact bal_lock h3 (by simp [rank]) fun hc => bal_goals fun x hx => Nat.lt_of_lt_of_le (hc x hx) (by simp [rank])
  · exact bal_lock hb (by simp [rank]) fun hc => bal_large hc hm

theorem bal_feedback {h : List Lock} (hb : Below rank 2 h) {m : Msg} (hm : Medium m.cb) : Bal rank h (feedbackOps m) := by
  have h3 : Below rank 3 h := fun x hx => Nat.lt_trans (hb x hx) (by omega)
  refine bal_lock h3 (by simp [rank]) fun hc => bal_append ?_ ?_
  · exact bal_write (fun x hx => Nat.lt_of_lt_of_le (hc x hx) (by simp [rank])) m
  · exact bal_lock hc (by simp [rank]) fun hd => bal_medium hd hm

theorem bal_result {h : List Lock} (hb : Below rank 2 h) {m : Msg} (hm : Large m.cb) : Bal rank h (resultOps m) := by
  have h3 : Below rank 3 h := fun x hx => Nat.lt_trans (hb x hx) (by omega)
  refine bal_append (bal_append ?_ ?_) (bal_ite ?_ (bal_nil _))
  · exact bal_lock h3 (by simp [rank]) fun hc => bal_write (fun x hx => Nat.lt_of_lt_of_le (hc x hx) (by simp [rank])) m
  · exact bal_lock hb (by simp [rank]) fun hc => bal_large hc hm
  · exact bal_lock h3 (by simp [rank]) fun _ => bal_nil _

theorem bal_pump {i : Inbox} (hi : i.Good) : Bal rank [] (pumpOps i) := by
  have h0 : Below rank 0 ([] : List Lock) := fun x hx => absurd hx List.not_mem_nil
  refine bal_lock h0 (by simp [rank]) fun h1 => bal_append (bal_append ?_ ?_) ?_
  · exact bal_lock h1 (by simp [rank]) fun h2 => bal_flatMap fun m hm => bal_status h2 (hi.1 m hm)
  · exact bal_lock h1 (by simp [rank]) fun h2 => bal_flatMap fun m hm => bal_feedback h2 (hi.2.1 m hm)
  · exact bal_lock h1 (by simp [rank]) fun h2 => bal_flatMap fun m hm => bal_result h2 (hi.2.2 m hm)

theorem bal_round {g : Nat} {i : Inbox} (hi : i.Good) : Bal rank [] (round g i) :=
  bal_append (bal_pump hi) (bal_lock (below_nil 0) (Nat.zero_le _) fun _ => bal_nil _)

theorem bal_roundFeedback {g : Nat} {x : Inbox × List (Op Lock)} (hi : x.1.Good) (hs : Small x.2) : Bal rank [] (roundFeedback g x) :=
  bal_append (bal_pump hi) (bal_lock (below_nil 0) (Nat.zero_le _) fun hc => bal_small hc hs)

theorem bal_giveUp (t : Bool) : Bal rank [] (giveUp t) := bal_ite (bal_basic (below_nil 3) .cancel) (bal_nil _)

theorem bal_call {c : Call} (hc : c.Good) : Bal rank [] c.ops := by
  cases c with
  | basic b => exact bal_basic (below_nil 3) b
  | init done =>
    refine bal_ite (bal_nil _) (bal_append (bal_append (bal_append (bal_append ?_ ?_) ?_) ?_) ?_) <;>
      exact bal_lock (below_nil 0) (Nat.zero_le _) fun _ => bal_nil _
  | tick i gs =>
    exact bal_append (bal_pump hc) (bal_lock (below_nil 0) (Nat.zero_le _) fun h => bal_goals fun x hx => Nat.lt_of_lt_of_le (h x hx) (by simp [rank]))
  | await g rs => exact bal_flatMap fun i hi => bal_round (hc i hi)
  | awaitFeedback g rs => exact bal_flatMap fun x hx => bal_roundFeedback (hc x hx).1 (hc x hx).2
  | sendAndWait g rs t =>
    exact bal_append (bal_append (bal_basic (below_nil 3) .send) (bal_flatMap fun i hi => bal_round (hc i hi))) (bal_giveUp t)
  | sendAndWaitFeedback g rs t =>
    exact bal_append (bal_append (bal_basic (below_nil 3) .send) (bal_flatMap fun x hx => bal_roundFeedback (hc x hx).1 (hc x hx).2)) (bal_giveUp t)

/-! ### Nobody hangs -/

theorem calls_ok {calls : Nat → List Call} (hc : ∀ t, ∀ c ∈ calls t, c.Good) (t : Nat) : ok rank [] ((calls t).flatMap Call.ops) := by
  simpa using bal_flatMap (rank := rank) (h := []) (f := Call.ops) (l := calls t) (fun c hx => bal_call (hc t c hx)) [] rfl

theorem rank_le (l : Lock) : rank l ≤ 6 := by cases l <;> simp [rank]

/-- As long as the callbacks keep to what they may call, however many threads share the client, whatever they
call, whatever arrives and however they are scheduled: a thread that is not done can go on, or another can. -/
theorem some_thread_goes_on {calls : Nat → List Call} (hc : ∀ t, ∀ c ∈ calls t, c.Good) {s : St Lock} (hr : Reach (start calls) s)
    {t : Nat} (ht : (s t).todo ≠ []) : ∃ u, canGo s u := progress rank_le (calls_ok hc) hr ht

/-- With finitely many threads: every schedule comes to an end within as many steps as there are lock
operations, and when nobody can go on any more every call of every thread has returned with all locks
released. -/
theorem every_call_returns {calls : Nat → List Call} {n : Nat} (hc : ∀ t, ∀ c ∈ calls t, c.Good) (hn : ∀ t, n ≤ t → calls t = [])
    {k : Nat} {s : St Lock} (hr : Steps (start calls) k s) :
    k + left s n = left (start calls) n ∧ ((∀ t, ¬ canGo s t) → ∀ t, (s t).todo = [] ∧ (s t).held = []) :=
  all_finish rank_le (calls_ok hc) (fun t ht => by simp [hn t ht]) hr

/-! ### Callbacks that hang the client -/

theorem start_list (calls : List (List Call)) :
    (start fun t => calls.getD t []) = begin fun t => (calls.map fun cs => cs.flatMap Call.ops).getD t [] := by
  funext t
  by_cases h : t < calls.length <;> simp [start, begin, h]

theorem dead_calls {calls : List (List Call)} (ts : List Nat) (h : deadB (calls.map fun cs => cs.flatMap Call.ops) ts = true) :
    ∃ s, Reach (start fun t => calls.getD t []) s ∧ Dead s := by
  rw [start_list]
  exact dead_of' ts h

theorem hung_calls {calls : List (List Call)} (ts : List Nat) (h : hungB (calls.map fun cs => cs.flatMap Call.ops) ts = true) :
    ∃ s, Reach (start fun t => calls.getD t []) s ∧ Hung s := by
  rw [start_list]
  exact hung_of' ts h

/-- A feedback callback that sends a goal hangs the one thread there is: the map of goals is locked while it
runs. A status or a result callback may send one (`some_thread_goes_on`). -/
theorem feedback_callback_sends_hangs :
    ∃ s, Reach (start fun t => [[Call.tick { feedback := [{ goal := some 7, cb := Basic.send.ops }] } []]].getD t []) s ∧ Dead s :=
  dead_calls (List.replicate 10 0) (by decide +kernel)

/-- A callback that waits for a result hangs the one thread there is: the pump is not re-entrant. -/
theorem callback_waits_hangs :
    (∃ s, Reach (start fun t => [[Call.tick { status := [{ cb := (Call.await 1 [{}]).ops }] } []]].getD t []) s ∧ Dead s) ∧
    (∃ s, Reach (start fun t => [[Call.tick { feedback := [{ cb := (Call.await 1 [{}]).ops }] } []]].getD t []) s ∧ Dead s) ∧
    (∃ s, Reach (start fun t => [[Call.tick { result := [{ cb := (Call.await 1 [{}]).ops }] } []]].getD t []) s ∧ Dead s) ∧
    (∃ s, Reach (start fun t => [[Call.tick { result := [{ cb := (Call.sendAndWait 1 [{}] false).ops }] } []]].getD t []) s ∧ Dead s) := by
  refine ⟨dead_calls (List.replicate 7 0) ?_, dead_calls (List.replicate 6 0) ?_, dead_calls (List.replicate 9 0) ?_, dead_calls (List.replicate 13 0) ?_⟩ <;> decide +kernel

/-- A feedback callback that asks the client for its active goals hangs it when another thread is just sending
a goal. -/
theorem feedback_callback_lists_hangs :
    ∃ s, Reach (start fun t => [[Call.tick { feedback := [{ cb := (Basic.list []).ops }] } []], [Call.basic .send]].getD t []) s ∧ Hung s :=
  hung_calls (List.replicate 6 0 ++ [1, 1]) (by decide +kernel)

/-- A waiting call whose callback sends the next goal hangs with a thread that is just delivering feedback for
the first. -/
theorem waiting_callback_sends_hangs :
    ∃ s, Reach (start fun t => [[Call.awaitFeedback 7 [({}, Basic.send.ops)]], [Call.tick { feedback := [{ goal := some 7 }] } []]].getD t []) s ∧ Dead s :=
  dead_calls (List.replicate 11 0 ++ List.replicate 5 1) (by decide +kernel)

/-- A waiting call whose callback looks at its own handle hangs with such a thread too. -/
theorem waiting_callback_looks_hangs :
    ∃ s, Reach (start fun t => [[Call.awaitFeedback 7 [({}, (Basic.getter 7).ops)]], [Call.tick { feedback := [{ goal := some 7 }] } []]].getD t []) s ∧ Hung s :=
  hung_calls (List.replicate 9 0 ++ List.replicate 5 1) (by decide +kernel)

/-- Two threads, callbacks that send, look and cancel as they may, all at once. -/
def busyInbox : Inbox where
  status := [{ goal := some 7, swept := [7, 8], cb := many [.send, .list [7, 8], .getter 7] }]
  feedback := [{ goal := some 7, cb := many [.cancel, .getter 7] }]
  result := [{ goal := some 7, removes := true, cb := many [.send, .goalStatus (some 8)] }]

example : ∀ t, ∀ c ∈ [[Call.tick busyInbox [8]], [Call.basic .send, Call.awaitFeedback 8 [({}, many [.cancel, .cancel])]]].getD t [], c.Good := by
  intro t c hc
  match t with
  | 0 =>
    simp only [List.getD_cons_zero, List.mem_singleton] at hc
    subst hc
    refine ⟨?_, ?_, ?_⟩
    · intro m hm; cases List.mem_singleton.1 hm; exact ⟨_, rfl⟩
    · intro m hm; cases List.mem_singleton.1 hm
      exact ⟨[.cancel, .getter 7], by simp, rfl⟩
    · intro m hm; cases List.mem_singleton.1 hm; exact ⟨_, rfl⟩
  | 1 =>
    simp only [List.getD_cons_succ, List.getD_cons_zero, List.mem_cons, List.not_mem_nil, or_false] at hc
    rcases hc with rfl | rfl
    · trivial
    · intro x hx; rw [List.mem_singleton] at hx; subst hx
      exact ⟨⟨by simp, by simp, by simp⟩, ⟨2, rfl⟩⟩
  | t + 2 => simp at hc

end Horus.ClientLocks
