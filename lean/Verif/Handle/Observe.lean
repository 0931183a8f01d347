import Mathlib.Tactic.Common
import Mathlib.Data.List.Basic

/-!
What `horus topic echo`, the recorder and the network exporter see of a topic, and what a topic's counters say.

Specification: an observer that finds a topic at rest gets the message published last; a publication makes the
topic look changed; the counters count the messages sent, received and lost.

Sources: /repo/horus_core/src/communication/topic/mod.rs:1733-1740, 2017-2025, 2041-2110, 2116-2186, 2203-2258,
2265-2345; /repo/horus_core/src/communication/topic/header.rs:715-850.

Simplifications: one publisher; whether the ring has room is left open (every call comes with the answer of the
ring), so nothing here depends on the backend; a message is one value, and a slot holds a value or was never
written.  The bytes and bounds of the observer's read are in `Verif/ShmNet`.
-/

namespace Horus.Observe

variable {α : Type}

/-- Counters of a handle (topic/metrics.rs:6-18). -/
structure Counters where
  sent : Nat := 0
  received : Nat := 0
  sendFailed : Nat := 0
  recvFailed : Nat := 0
  deriving DecidableEq, Repr

/-- A topic with its publisher: the slots of the ring, the publisher's position, `messages_total` of the header
and the counters. -/
structure St (α : Type) where
  slots : Nat → Option α := fun _ => none
  head : Nat := 0
  total : Nat := 0
  ctr : Counters := {}

/-- A call.  `ok` is what the ring answers; `verbose` is the flag of the topic at that moment. -/
inductive Op (α : Type)
  | send (v : α) (ok verbose : Bool)
  | trySend (v : α) (ok : Bool)
  | blocking (v : α) (ok : Bool)
  | recv (got verbose : Bool)

/-- The write of a message into its slot, `head & mask` (dispatch.rs:699-752, mod.rs:2060-2066). -/
def put (cap : Nat) (v : α) (s : St α) : St α :=
  { s with slots := fun i => if i = s.head % cap then some v else s.slots i, head := s.head + 1 }

/-- The calls: `send` counts first, whatever happens then (mod.rs:2043); a verbose one counts as sent after
`send_lossy` returned, which it does after a drop as well (mod.rs:2088-2093); a drop counts as failed
(mod.rs:2185). `try_send` and `send_blocking` go straight to the ring (mod.rs:1733-1740, 2203-2258). `recv`
counts on a verbose topic only (mod.rs:2266-2268, 2321-2325). -/
def step (cap : Nat) (s : St α) : Op α → St α
  | .send v ok verbose =>
    let s := { s with total := s.total + 1 }
    let s := if ok then put cap v s else { s with ctr := { s.ctr with sendFailed := s.ctr.sendFailed + 1 } }
    if verbose then { s with ctr := { s.ctr with sent := s.ctr.sent + 1 } } else s
  | .trySend v ok => if ok then put cap v s else s
  | .blocking v ok => if ok then put cap v s else s
  | .recv got verbose => if got && verbose then { s with ctr := { s.ctr with received := s.ctr.received + 1 } } else s

def run (cap : Nat) (s : St α) (ops : List (Op α)) : St α := ops.foldl (step cap) s

/-- What the observer reads: nothing if the count is zero or the one it saw last, else the slot of message number
`messages_total` (header.rs:835-849). -/
def observe (cap : Nat) (s : St α) (last : Nat) : Option (Option α) :=
  if s.total = 0 ∨ s.total = last then none else some (s.slots ((s.total - 1) % cap))

/-! ### Specification -/

/-- The message a call publishes. -/
def Op.published : Op α → Option α
  | .send v true _ => some v
  | .trySend v true => some v
  | .blocking v true => some v
  | _ => none

/-- All messages published, in order. -/
def published (ops : List (Op α)) : List α := ops.filterMap Op.published

/-- A `send` whose message was dropped. -/
def Op.dropped : Op α → Bool
  | .send _ false _ => true
  | _ => false

/-- A message published by another call than `send`. -/
def Op.uncounted : Op α → Bool
  | .trySend _ true => true
  | .blocking _ true => true
  | _ => false

/-! ### Proofs -/

/-- The ring holds the last messages. -/
def Good (cap : Nat) (s : St α) (log : List α) : Prop :=
  s.head = log.length ∧ (∀ j, j < log.length → log.length ≤ j + cap → s.slots (j % cap) = log[j]?) ∧
    ∀ j, j < cap → log.length ≤ j → s.slots j = none

theorem mod_ne_of_close {cap a b : Nat} (hab : a < b) (hb : b < a + cap) : a % cap ≠ b % cap := by
  intro h
  have h1 := Nat.div_add_mod a cap
  have h2 := Nat.div_add_mod b cap
  have hc : 0 < cap := by omega
  rcases Nat.lt_trichotomy (a / cap) (b / cap) with hl | he | hg
  · have : cap * (a / cap + 1) ≤ cap * (b / cap) := Nat.mul_le_mul_left _ hl
    rw [Nat.mul_add] at this
    omega
  · rw [he] at h1; omega
  · have : cap * (b / cap + 1) ≤ cap * (a / cap) := Nat.mul_le_mul_left _ hg
    rw [Nat.mul_add] at this
    omega

theorem put_good (cap : Nat) (hc : 0 < cap) (v : α) (s : St α) (log : List α) (h : Good cap s log) :
    Good cap (put cap v s) (log ++ [v]) := by
  obtain ⟨h1, h2, h3⟩ := h
  refine ⟨?_, ?_, ?_⟩
  · simp [put, h1]
  · intro j hj hb
    rw [List.length_append, List.length_singleton] at hj hb
    unfold put
    dsimp only
    by_cases hjl : j = log.length
    · subst hjl
      rw [h1, if_pos rfl, List.getElem?_concat_length]
    · have hlt : j < log.length := by omega
      rw [h1, if_neg (mod_ne_of_close hlt (by omega)), h2 j hlt (by omega), List.getElem?_append_left hlt]
  · intro j hj hl
    rw [List.length_append, List.length_singleton] at hl
    unfold put
    dsimp only
    rw [if_neg, h3 j hj (by omega)]
    intro e
    rw [h1] at e
    have : log.length % cap = log.length := Nat.mod_eq_of_lt (by omega)
    omega

theorem good_congr {cap : Nat} {s t : St α} {log : List α} (h : Good cap s log) (h1 : t.slots = s.slots) (h2 : t.head = s.head) :
    Good cap t log := by
  unfold Good at h ⊢
  rw [h1, h2]
  exact h

theorem step_good (cap : Nat) (hc : 0 < cap) (s : St α) (log : List α) (h : Good cap s log) (op : Op α) :
    Good cap (step cap s op) (log ++ (Op.published op).toList) := by
  cases op with
  | send v ok verbose =>
    have hb : Good cap { s with total := s.total + 1 } log := good_congr h rfl rfl
    cases ok with
    | true =>
      have := put_good cap hc v _ log hb
      cases verbose with
      | true => exact good_congr this rfl rfl
      | false => exact this
    | false =>
      have e : log ++ (Op.published (.send v false verbose)).toList = log := List.append_nil _
      rw [e]
      cases verbose with
      | true => exact good_congr h rfl rfl
      | false => exact good_congr h rfl rfl
  | trySend v ok =>
    cases ok with
    | true => exact put_good cap hc v s log h
    | false => rw [show log ++ (Op.published (.trySend v false)).toList = log from List.append_nil _]; exact h
  | blocking v ok =>
    cases ok with
    | true => exact put_good cap hc v s log h
    | false => rw [show log ++ (Op.published (.blocking v false)).toList = log from List.append_nil _]; exact h
  | recv got verbose =>
    rw [show log ++ (Op.published (Op.recv got verbose : Op α)).toList = log from List.append_nil _]
    cases got <;> cases verbose
    · exact h
    · exact h
    · exact h
    · exact good_congr h rfl rfl

theorem run_good (cap : Nat) (hc : 0 < cap) (ops : List (Op α)) (s : St α) (log : List α) (h : Good cap s log) :
    Good cap (run cap s ops) (log ++ published ops) := by
  induction ops generalizing s log with
  | nil => rw [show log ++ published ([] : List (Op α)) = log from List.append_nil _]; exact h
  | cons op ops ih =>
    have := ih (step cap s op) _ (step_good cap hc s log h op)
    have e : log ++ published (op :: ops) = log ++ (Op.published op).toList ++ published ops := by
      unfold published
      rw [List.filterMap_cons]
      cases Op.published op with
      | none => simp
      | some v => simp
    rw [e]
    exact this

theorem good_init (cap : Nat) : Good cap ({} : St α) [] :=
  ⟨rfl, fun _ h => absurd h (Nat.not_lt_zero _), fun _ _ _ => rfl⟩

theorem run_total (cap : Nat) (ops : List (Op α)) (s : St α) :
    (run cap s ops).total + (ops.filter Op.uncounted).length = s.total + (published ops).length + (ops.filter Op.dropped).length := by
  induction ops generalizing s with
  | nil => simp [run, published]
  | cons op ops ih =>
    have := ih (step cap s op)
    have hr : run cap s (op :: ops) = run cap (step cap s op) ops := rfl
    rw [hr]
    unfold published at this ⊢
    generalize run cap (step cap s op) ops = r at this ⊢
    cases op with
    | send v ok verbose =>
      cases ok <;> cases verbose <;> simp [step, put, Op.published, Op.uncounted, Op.dropped, List.filter_cons, List.filterMap_cons] at this ⊢ <;> omega
    | trySend v ok =>
      cases ok <;> simp [step, put, Op.published, Op.uncounted, Op.dropped, List.filter_cons, List.filterMap_cons] at this ⊢ <;> omega
    | blocking v ok =>
      cases ok <;> simp [step, put, Op.published, Op.uncounted, Op.dropped, List.filter_cons, List.filterMap_cons] at this ⊢ <;> omega
    | recv got verbose =>
      cases got <;> cases verbose <;> simp [step, Op.published, Op.uncounted, Op.dropped, List.filter_cons, List.filterMap_cons] at this ⊢ <;> omega

/-- **The observer sees the message published last**, as long as drops and uncounted messages balance; in
particular if every message goes through `send` and none is dropped. -/
theorem observed_last_partial (cap : Nat) (hc : 0 < cap) (ops : List (Op α)) (last : Nat)
    (hb : (ops.filter Op.dropped).length = (ops.filter Op.uncounted).length) (hl : last ≠ (published ops).length)
    (hp : published ops ≠ []) :
    observe cap (run cap {} ops) last = some (published ops).getLast? := by
  have ht := run_total cap ops ({} : St α)
  have hg := run_good cap hc ops {} [] (good_init cap)
  rw [List.nil_append] at hg
  have h0 : ({} : St α).total = 0 := rfl
  have ht' : (run cap {} ops).total = (published ops).length := by omega
  have hpos : 0 < (published ops).length := List.length_pos_of_ne_nil hp
  unfold observe
  rw [ht', if_neg (by omega), hg.2.1 _ (by omega) (by omega), List.getLast?_eq_getElem?]

/-- The hypotheses are met: five sends on a ring of four. -/
example : (observe 4 (run 4 {} [.send 1 true false, .send 2 true true, .send 3 true false, .recv true true, .send 4 true false, .send 5 true false]) 0) =
    some (some 5) := by decide

/-- **After `d` messages that went through `try_send` or `send_blocking` the observer is `d` messages behind, for
ever**: whatever is sent later, it gets not the last message but an earlier one. -/
theorem observed_behind (cap : Nat) (ops : List (Op α)) (last d : Nat) (hd : 0 < d) (hdc : d < cap)
    (hb : (ops.filter Op.uncounted).length = (ops.filter Op.dropped).length + d) (hlen : d < (published ops).length)
    (hl : last + d ≠ (published ops).length) :
    observe cap (run cap {} ops) last = some ((published ops)[(published ops).length - 1 - d]?) := by
  have ht := run_total cap ops ({} : St α)
  have hg := run_good cap (by omega) ops {} [] (good_init cap)
  rw [List.nil_append] at hg
  have h0 : ({} : St α).total = 0 := rfl
  have ht' : (run cap {} ops).total = (published ops).length - d := by omega
  unfold observe
  rw [ht', if_neg (by omega), show (published ops).length - d - 1 = (published ops).length - 1 - d by omega,
    hg.2.1 _ (by omega) (by omega)]

example : observe 4 (run 4 {} [.trySend 1 true, .send 2 true false, .send 3 true false, .send 4 true false]) 0 = some (some 3) := by decide

/-- **After `d` dropped messages the observer looks `d` slots ahead, for ever**: it gets a message of almost a
whole ring before, or a slot that was never written. -/
theorem observed_ahead (cap : Nat) (ops : List (Op α)) (last d : Nat) (hd : 0 < d) (hdc : d ≤ cap)
    (hb : (ops.filter Op.dropped).length = (ops.filter Op.uncounted).length + d) (hl : last ≠ (published ops).length + d) :
    observe cap (run cap {} ops) last =
      some (if cap < (published ops).length + d then (published ops)[(published ops).length + d - 1 - cap]? else none) := by
  have ht := run_total cap ops ({} : St α)
  have hg := run_good cap (by omega) ops {} [] (good_init cap)
  rw [List.nil_append] at hg
  have h0 : ({} : St α).total = 0 := rfl
  have ht' : (run cap {} ops).total = (published ops).length + d := by omega
  unfold observe
  rw [ht', if_neg (by omega)]
  by_cases hx : cap < (published ops).length + d
  · rw [if_pos hx]
    have e : (published ops).length + d - 1 = (published ops).length + d - 1 - cap + cap := by omega
    rw [e, Nat.add_mod_right, hg.2.1 _ (by omega) (by omega), Nat.add_sub_cancel]
  · rw [if_neg hx, Nat.mod_eq_of_lt (by omega), hg.2.2 _ (by omega) (by omega)]

example : observe 4 (run 4 {} [.send 1 true false, .send 2 true false, .send 3 true false, .send 4 true false, .send 9 false false, .recv true false,
    .send 5 true false, .send 6 true false]) 0 = some (some 3) := by decide

/-- **A message that goes through `try_send` or `send_blocking` is not noticed**: an observer that has seen the
topic before gets nothing. -/
theorem uncounted_unnoticed (cap : Nat) (s : St α) (v : α) (ok : Bool) :
    observe cap (step cap s (.trySend v ok)) s.total = none ∧ observe cap (step cap s (.blocking v ok)) s.total = none := by
  have h1 : (step cap s (.trySend v ok)).total = s.total := by cases ok <;> rfl
  have h2 : (step cap s (.blocking v ok)).total = s.total := by cases ok <;> rfl
  unfold observe
  rw [h1, h2, if_pos (.inr rfl), if_pos (.inr rfl)]
  exact ⟨rfl, rfl⟩

/-- **A dropped message looks like news**: the observer is handed a message although none was published. -/
theorem drop_is_news (cap : Nat) (s : St α) (v : α) (b : Bool) :
    (observe cap (step cap s (.send v false b)) s.total).isSome = true := by
  have h : (step cap s (.send v false b)).total = s.total + 1 := by cases b <;> rfl
  unfold observe
  rw [h, if_neg (by omega)]
  rfl

/-- The state in the middle of a `send`: counted, not yet written (mod.rs:2043 before 2060-2066). -/
def midSend (s : St α) : St α := { s with total := s.total + 1 }

/-- **During a `send` the observer gets the message of a whole ring before**, or an unwritten slot; the comment at
header.rs:840 says the count is incremented after the write. -/
theorem observed_mid_send (cap : Nat) (hc : 0 < cap) (ops : List (Op α)) (last : Nat)
    (hb : (ops.filter Op.dropped).length = (ops.filter Op.uncounted).length) (hl : last ≠ (published ops).length + 1) :
    observe cap (midSend (run cap {} ops)) last =
      some (if cap ≤ (published ops).length then (published ops)[(published ops).length - cap]? else none) := by
  have ht := run_total cap ops ({} : St α)
  have hg := run_good cap hc ops {} [] (good_init cap)
  rw [List.nil_append] at hg
  have h0 : ({} : St α).total = 0 := rfl
  have ht' : (run cap {} ops).total = (published ops).length := by omega
  unfold observe midSend
  dsimp only
  rw [ht', if_neg (by omega), Nat.add_sub_cancel]
  by_cases hx : cap ≤ (published ops).length
  · rw [if_pos hx]
    have e : (published ops).length % cap = ((published ops).length - cap) % cap := by
      conv => lhs; rw [show (published ops).length = (published ops).length - cap + cap by omega]
      exact Nat.add_mod_right _ _
    rw [e, hg.2.1 _ (by omega) (by omega)]
  · rw [if_neg hx, Nat.mod_eq_of_lt (by omega), hg.2.2 _ (by omega) (by omega)]

example : observe 2 (midSend (run 2 {} [.send 1 true false, .send 2 true false, .send 3 true false])) 0 = some (some 2) := by decide

/-! ### Counters -/

/-- A `send` while the topic is verbose. -/
def Op.loudSend : Op α → Bool
  | .send _ _ v => v
  | _ => false

/-- A successful `recv` while the topic is verbose. -/
def Op.loudRecv : Op α → Bool
  | .recv true v => v
  | _ => false

theorem counters_from (cap : Nat) (ops : List (Op α)) (s : St α) :
    (run cap s ops).ctr = ⟨s.ctr.sent + (ops.filter Op.loudSend).length, s.ctr.received + (ops.filter Op.loudRecv).length,
      s.ctr.sendFailed + (ops.filter Op.dropped).length, s.ctr.recvFailed⟩ := by
  induction ops generalizing s with
  | nil => rfl
  | cons op ops ih =>
    have hr : run cap s (op :: ops) = run cap (step cap s op) ops := rfl
    rw [hr, ih]
    cases op with
    | send v ok verbose =>
      cases ok <;> cases verbose <;> simp [step, put, Op.loudSend, Op.loudRecv, Op.dropped, List.filter_cons] <;> omega
    | trySend v ok => cases ok <;> simp [step, put, Op.loudSend, Op.loudRecv, Op.dropped, List.filter_cons]
    | blocking v ok => cases ok <;> simp [step, put, Op.loudSend, Op.loudRecv, Op.dropped, List.filter_cons]
    | recv got verbose =>
      cases got <;> cases verbose <;> simp [step, Op.loudSend, Op.loudRecv, Op.dropped, List.filter_cons] <;> omega

/-- **What the counters of `Topic::metrics` count**: the `send` calls made while content logging was on, dropped or
not; the messages received while it was on; the drops of `send`; and never a failed receive. -/
theorem counters_exact (cap : Nat) (ops : List (Op α)) :
    (run cap {} ops).ctr = ⟨(ops.filter Op.loudSend).length, (ops.filter Op.loudRecv).length, (ops.filter Op.dropped).length, 0⟩ := by
  rw [counters_from]
  show (⟨0 + _, 0 + _, 0 + _, 0⟩ : Counters) = _
  rw [Nat.zero_add, Nat.zero_add, Nat.zero_add]

/-- **Without content logging nothing is ever counted as sent or received.** -/
theorem quiet_counts_nothing (cap : Nat) (ops : List (Op α)) (h : ∀ op ∈ ops, Op.loudSend op = false ∧ Op.loudRecv op = false) :
    (run cap {} ops).ctr.sent = 0 ∧ (run cap {} ops).ctr.received = 0 := by
  rw [counters_exact]
  have h1 : ops.filter Op.loudSend = [] := List.filter_eq_nil_iff.2 fun a ha => by rw [(h a ha).1]; exact Bool.false_ne_true
  have h2 : ops.filter Op.loudRecv = [] := List.filter_eq_nil_iff.2 fun a ha => by rw [(h a ha).2]; exact Bool.false_ne_true
  rw [h1, h2]
  exact ⟨rfl, rfl⟩

/-- A thousand quiet messages: none counted. -/
example : (run 4 {} ((List.range 1000).map fun i => Op.send i true false)).ctr = {} := by
  rw [counters_exact]
  have h : ∀ l : List Nat, (l.map fun i => Op.send i true false).filter Op.loudSend = [] := fun l =>
    List.filter_eq_nil_iff.2 fun a ha => by obtain ⟨i, _, rfl⟩ := List.mem_map.1 ha; exact Bool.false_ne_true
  have h' : ∀ l : List Nat, (l.map fun i => Op.send i true false).filter Op.loudRecv = [] := fun l =>
    List.filter_eq_nil_iff.2 fun a ha => by obtain ⟨i, _, rfl⟩ := List.mem_map.1 ha; exact Bool.false_ne_true
  have h'' : ∀ l : List Nat, (l.map fun i => Op.send i true false).filter Op.dropped = [] := fun l =>
    List.filter_eq_nil_iff.2 fun a ha => by obtain ⟨i, _, rfl⟩ := List.mem_map.1 ha; exact Bool.false_ne_true
  rw [h, h', h'']
  rfl

/-- **A dropped message counts as sent and as failed.** -/
theorem dropped_counts_twice (cap : Nat) (v : α) : (run cap {} [.send v false true]).ctr = ⟨1, 0, 1, 0⟩ := counters_exact cap _

end Horus.Observe
