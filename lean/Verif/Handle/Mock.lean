import Mathlib.Tactic.Common
import Mathlib.Data.List.Basic
import Mathlib.Logic.Function.Iterate

/-!
The test doubles: `MockTopic` and `TestNode`.

Specification: without faults the mock is a first-in first-out queue; faults strike exactly the calls they are
configured for; no message is lost or invented; a node told to panic on its n-th tick does so.

Sources: /repo/horus_core/src/testing/mock_topic.rs, /repo/horus_core/src/testing/test_node.rs:236-278.
-/

namespace Horus.Mock

variable {α : Type}

/-- `MockTopicConfig` (mock_topic.rs:31-44). -/
structure Cfg where
  capacity : Nat := 0
  sendEvery : Option Nat := none
  recvEvery : Option Nat := none
  sendAfter : Option Nat := none
  recvAfter : Option Nat := none
  alwaysTimeout : Bool := false

/-- `MockTopic` (mock_topic.rs:50-58). -/
structure St (α : Type) where
  buf : List α := []
  sends : Nat := 0
  recvs : Nat := 0
  sendFailures : Nat := 0
  recvFailures : Nat := 0

/-- The injected faults (mock_topic.rs:96-109, 148-161): after a limit, or every n-th call. -/
def faulty (after every : Option Nat) (count : Nat) : Bool :=
  (match after with | some l => decide (l < count) | none => false) ||
    (match every with | some n => decide (0 < n) && decide (count % n = 0) | none => false)

/-- `try_send` (mock_topic.rs:92-121). -/
def trySend (c : Cfg) (s : St α) (v : α) : St α × Bool :=
  let count := s.sends + 1
  if faulty c.sendAfter c.sendEvery count then ({ s with sends := count, sendFailures := s.sendFailures + 1 }, false)
  else if 0 < c.capacity ∧ c.capacity ≤ s.buf.length then ({ s with sends := count, sendFailures := s.sendFailures + 1 }, false)
  else ({ s with sends := count, buf := s.buf ++ [v] }, true)

/-- `send_blocking` (mock_topic.rs:124-136). -/
def sendBlocking (c : Cfg) (s : St α) (v : α) : St α × Bool :=
  if c.alwaysTimeout then (s, false) else trySend c s v

/-- `try_recv` (mock_topic.rs:144-165). -/
def tryRecv (c : Cfg) (s : St α) : St α × Option α :=
  let count := s.recvs + 1
  if faulty c.recvAfter c.recvEvery count then ({ s with recvs := count, recvFailures := s.recvFailures + 1 }, none)
  else match s.buf with
    | [] => ({ s with recvs := count }, none)
    | v :: r => ({ s with recvs := count, buf := r }, some v)

/-- `read_latest` (mock_topic.rs:168-171). -/
def latest (s : St α) : Option α := s.buf.getLast?

/-- A test's calls; `send` (mock_topic.rs:87-89) is `try_send` with the answer thrown away. -/
inductive Op (α : Type)
  | send (v : α)
  | blocking (v : α)
  | recv

/-- One call: the new state, what was accepted, what was received. -/
def step (c : Cfg) (s : St α) : Op α → St α × List α × List α
  | .send v => let r := trySend c s v; (r.1, if r.2 then [v] else [], [])
  | .blocking v => let r := sendBlocking c s v; (r.1, if r.2 then [v] else [], [])
  | .recv => let r := tryRecv c s; (r.1, [], r.2.toList)

/-- A test: final state, everything accepted, everything received. -/
def run (c : Cfg) (s : St α) : List (Op α) → St α × List α × List α
  | [] => (s, [], [])
  | o :: os => let r := step c s o; let q := run c r.1 os; (q.1, r.2.1 ++ q.2.1, r.2.2 ++ q.2.2)

/-! ### Proofs -/

theorem step_conserves (c : Cfg) (s : St α) (o : Op α) : s.buf ++ (step c s o).2.1 = (step c s o).2.2 ++ (step c s o).1.buf := by
  have hs : ∀ v, s.buf ++ (if (trySend c s v).2 then [v] else []) = (trySend c s v).1.buf := by
    intro v
    unfold trySend
    dsimp only
    by_cases h1 : faulty c.sendAfter c.sendEvery (s.sends + 1) = true
    · rw [if_pos h1]; simp
    rw [if_neg h1]
    by_cases h2 : 0 < c.capacity ∧ c.capacity ≤ s.buf.length
    · rw [if_pos h2]; simp
    · rw [if_neg h2]; simp
  cases o with
  | send v => exact hs v
  | blocking v =>
    show s.buf ++ (if (sendBlocking c s v).2 then [v] else []) = (sendBlocking c s v).1.buf
    unfold sendBlocking
    by_cases h : c.alwaysTimeout = true
    · rw [if_pos h]; simp
    · rw [if_neg h]; exact hs v
  | recv =>
    show s.buf ++ [] = (tryRecv c s).2.toList ++ (tryRecv c s).1.buf
    unfold tryRecv
    dsimp only
    by_cases h1 : faulty c.recvAfter c.recvEvery (s.recvs + 1) = true
    · rw [if_pos h1]; simp
    rw [if_neg h1]
    cases s.buf <;> simp

theorem run_conserves (c : Cfg) (os : List (Op α)) (s : St α) : s.buf ++ (run c s os).2.1 = (run c s os).2.2 ++ (run c s os).1.buf := by
  induction os generalizing s with
  | nil => simp [run]
  | cons o os ih =>
    simp only [run]
    rw [← List.append_assoc, step_conserves, List.append_assoc, ih, List.append_assoc]

/-- **First in, first out, nothing lost or invented**: under any faults, what was received, followed by what waits,
is what was accepted. -/
theorem fifo (c : Cfg) (os : List (Op α)) : (run c {} os).2.1 = (run c {} os).2.2 ++ (run c {} os).1.buf := by
  have := run_conserves c os ({} : St α)
  simpa using this

/-- **The buffer never exceeds its capacity.** -/
theorem bounded (c : Cfg) (hc : 0 < c.capacity) (os : List (Op α)) (s : St α) (h : s.buf.length ≤ c.capacity) :
    (run c s os).1.buf.length ≤ c.capacity := by
  have hs : ∀ s : St α, s.buf.length ≤ c.capacity → ∀ v, (trySend c s v).1.buf.length ≤ c.capacity := by
    intro s h v
    unfold trySend
    dsimp only
    by_cases h1 : faulty c.sendAfter c.sendEvery (s.sends + 1) = true
    · rw [if_pos h1]; exact h
    rw [if_neg h1]
    by_cases h2 : 0 < c.capacity ∧ c.capacity ≤ s.buf.length
    · rw [if_pos h2]; exact h
    · rw [if_neg h2]; simp; omega
  induction os generalizing s with
  | nil => exact h
  | cons o os ih =>
    simp only [run]
    apply ih
    cases o with
    | send v => exact hs s h v
    | blocking v =>
      show (sendBlocking c s v).1.buf.length ≤ c.capacity
      unfold sendBlocking
      by_cases ht : c.alwaysTimeout = true
      · rw [if_pos ht]; exact h
      · rw [if_neg ht]; exact hs s h v
    | recv =>
      show (tryRecv c s).1.buf.length ≤ c.capacity
      unfold tryRecv
      dsimp only
      by_cases h1 : faulty c.recvAfter c.recvEvery (s.recvs + 1) = true
      · rw [if_pos h1]; exact h
      rw [if_neg h1]
      cases hb : s.buf with
      | nil => simp [hb]
      | cons v r => rw [hb] at h; simp at h ⊢; omega

/-- **A send fails exactly when told to or when the buffer is full.** The number of the call counts all calls of
`send`, `try_send` and `send_blocking` before it, failed ones too. -/
theorem send_fails_iff (c : Cfg) (s : St α) (v : α) :
    (trySend c s v).2 = false ↔
      (∃ l, c.sendAfter = some l ∧ l < s.sends + 1) ∨ (∃ n, c.sendEvery = some n ∧ 0 < n ∧ n ∣ s.sends + 1) ∨
        (0 < c.capacity ∧ c.capacity ≤ s.buf.length) := by
  have hf : faulty c.sendAfter c.sendEvery (s.sends + 1) = true ↔
      (∃ l, c.sendAfter = some l ∧ l < s.sends + 1) ∨ (∃ n, c.sendEvery = some n ∧ 0 < n ∧ n ∣ s.sends + 1) := by
    unfold faulty
    rw [Bool.or_eq_true]
    refine or_congr ?_ ?_
    · cases c.sendAfter with
      | none => simp
      | some l => simp
    · cases c.sendEvery with
      | none => simp
      | some n => simp [Nat.dvd_iff_mod_eq_zero]
  rw [← or_assoc, ← hf]
  unfold trySend
  dsimp only
  by_cases h1 : faulty c.sendAfter c.sendEvery (s.sends + 1) = true
  · rw [if_pos h1]; simp [h1]
  rw [if_neg h1]
  by_cases h2 : 0 < c.capacity ∧ c.capacity ≤ s.buf.length
  · rw [if_pos h2]; simp [h2]
  · rw [if_neg h2]; simp [h1, h2]

/-- Number of a kind of call. -/
def countSends (c : Cfg) (os : List (Op α)) : Nat :=
  (os.filter fun o => match o with | .send _ => true | .blocking _ => !c.alwaysTimeout | .recv => false).length

/-- **The counters**: sends are the calls, failed ones included; a send that failed is counted as failed; the
rest is what was accepted. -/
theorem send_accounting (c : Cfg) (os : List (Op α)) (s : St α) :
    (run c s os).1.sends = s.sends + countSends c os ∧
    (run c s os).1.sends + s.sendFailures = s.sends + (run c s os).2.1.length + (run c s os).1.sendFailures := by
  have hs : ∀ (s : St α) v, (trySend c s v).1.sends = s.sends + 1 ∧
      (trySend c s v).1.sends + s.sendFailures = s.sends + (if (trySend c s v).2 then [v] else []).length + (trySend c s v).1.sendFailures := by
    intro s v
    unfold trySend
    dsimp only
    by_cases h1 : faulty c.sendAfter c.sendEvery (s.sends + 1) = true
    · rw [if_pos h1]; simp; omega
    rw [if_neg h1]
    by_cases h2 : 0 < c.capacity ∧ c.capacity ≤ s.buf.length
    · rw [if_pos h2]; simp; omega
    · rw [if_neg h2]; simp
  induction os generalizing s with
  | nil => simp [run, countSends]
  | cons o os ih =>
    simp only [run]
    obtain ⟨i1, i2⟩ := ih (step c s o).1
    rw [List.length_append]
    have hstep : (step c s o).1.sends = s.sends + countSends c [o] ∧
        (step c s o).1.sends + s.sendFailures = s.sends + (step c s o).2.1.length + (step c s o).1.sendFailures := by
      cases o with
      | send v => exact ⟨(hs s v).1, (hs s v).2⟩
      | blocking v =>
        show (sendBlocking c s v).1.sends = s.sends + countSends c [.blocking v] ∧ (sendBlocking c s v).1.sends + s.sendFailures =
          s.sends + (if (sendBlocking c s v).2 then [v] else []).length + (sendBlocking c s v).1.sendFailures
        unfold sendBlocking countSends
        by_cases h : c.alwaysTimeout = true
        · rw [if_pos h]; simp [h]
        · rw [if_neg h]
          refine ⟨?_, (hs s v).2⟩
          rw [(hs s v).1]
          simp [h]
      | recv =>
        show (tryRecv c s).1.sends = s.sends + countSends c [(.recv : Op α)] ∧ (tryRecv c s).1.sends + s.sendFailures =
          s.sends + 0 + (tryRecv c s).1.sendFailures
        unfold tryRecv countSends
        dsimp only
        by_cases h1 : faulty c.recvAfter c.recvEvery (s.recvs + 1) = true
        · rw [if_pos h1]; simp
        rw [if_neg h1]
        cases s.buf <;> simp
    have hc : countSends c (o :: os) = countSends c [o] + countSends c os := by
      unfold countSends
      rw [show o :: os = [o] ++ os from rfl, List.filter_append, List.length_append]
    omega

example : let r := run { capacity := 2, sendEvery := some 3 } {} [.send 1, .send 2, .send 3, .send 4, .recv, .send 5, .recv, .recv]
    r.2 = ([1, 2, 5], [1, 2, 5]) ∧ r.1.sends = 5 ∧ r.1.sendFailures = 2 := by decide

/-- **Unlike a topic, the mock forgets what was read**: `read_latest` gives nothing once the last message was
received, where `Topic::read_latest` promises the last message published. -/
theorem latest_forgotten (v : α) : latest (run {} {} [.send v, .recv]).1 = none ∧ latest (run {} {} [.send v]).1 = some v := ⟨rfl, rfl⟩

/-- **`messages_sent` counts failures**: of a mock that refuses everything it is the number of calls. -/
theorem sent_counts_failures (v : α) : (run { sendAfter := some 0 } {} [.send v, .send v]).1.sends = 2 ∧
    (run { sendAfter := some 0 } {} [.send v, .send v]).2.1 = [] := ⟨rfl, rfl⟩

/-! ### Test nodes -/

/-- `TestNode::tick` with `PanicOnTick(n)` (test_node.rs:248-262): the counter after the tick and whether it
panicked.  The 32-bit counter is not modelled. -/
def nodeTick (n count : Nat) : Nat × Bool := (count + 1, decide (n ≤ count + 1))

/-- Whether the k-th tick (from one) panics. -/
def panicsAt (n : Nat) : Nat → Bool
  | 0 => false
  | k + 1 => (nodeTick n ((fun c => (nodeTick n c).1)^[k] 0)).2

/-- **A node told to panic on its n-th tick panics on it and on every later one**, not on the n-th alone. -/
theorem panics_from (n k : Nat) (hk : 0 < k) : panicsAt n k = true ↔ n ≤ k := by
  have hi : ∀ j, (fun c => (nodeTick n c).1)^[j] 0 = j := by
    intro j
    induction j with
    | zero => rfl
    | succ j ih => rw [Function.iterate_succ_apply', ih]; rfl
  cases k with
  | zero => exact absurd hk (Nat.lt_irrefl 0)
  | succ k =>
    show (nodeTick n ((fun c => (nodeTick n c).1)^[k] 0)).2 = true ↔ _
    rw [hi]
    unfold nodeTick
    rw [decide_eq_true_eq]

example : (List.range 6).map (panicsAt 3) = [false, false, false, true, true, true] := by decide

end Horus.Mock
