import Verif.Ring.Common
/-
Model of the broadcast ring (mode PodShm): horus_core/src/communication/topic/dispatch.rs:823-873
`send_shm_pod_broadcast` and 1349-1539 `recv_shm_pod_broadcast`. Any number of producers and
subscribers, one transition per access to shared memory; a message is written and copied one word at
a time. Simplifications: sequentially consistent memory (the code uses the fence pairing of a
sequence lock for exactly these accesses); positions are natural numbers below 2^63, so a ready word
is a pair (stamp, writing bit).
-/
namespace Horus.Ring.Broadcast
open Horus.Ring

/-- Where a producer is inside `send`. Source: topic/dispatch.rs:823-873, 1349-1539. -/
inductive PPc
  | idle
  | mark (m : List Nat) (seq : Nat)      -- 863: ready := (seq+1) | SLOT_WRITING
  | write (m : List Nat) (seq k : Nat)   -- 865: word k
  | stamp (m : List Nat) (seq : Nat)     -- 866: ready := seq+1
deriving DecidableEq

/-- Where a subscriber is inside `recv`. Source: topic/dispatch.rs:823-873, 1349-1539. -/
inductive CPc
  | idle
  | reload                    -- 1365: load head
  | lag                       -- 1393, 1482: load head and skip forward
  | load1                     -- 1436: first load of the ready word
  | read (acc : List Nat)     -- 1520
  | recheck (acc : List Nat)  -- 1530: second load of the ready word
deriving DecidableEq

/-- A subscriber handle: `start` (ghost) is where it joined, `missed` its `missed_count()`,
`received` (ghost) the positions and values `recv` returned.
Ghost or helper of the model of topic/dispatch.rs:823-873, 1349-1539. -/
structure Sub where
  joined : Bool
  start : Nat
  cHead : Nat
  cTail : Nat
  missed : Nat
  pc : CPc
  received : List (Nat × List Nat)

/-- Shared memory (dispatch.rs:823-873, 1349-1539) and every handle. -/
structure St where
  head : Nat
  slot : Nat → Nat → Nat
  ready : Nat → Nat × Bool
  prods : Nat → PPc
  subs : Nat → Sub
  /-- ghost: messages in the order in which their positions were claimed -/
  claimed : List (List Nat)

/-- A fresh region (header.rs:329-391), nobody joined. -/
def St.init : St :=
  ⟨0, fun _ _ => 0, fun _ => (0, false), fun _ => .idle, fun _ => ⟨false, 0, 0, 0, 0, .idle, []⟩, []⟩

/-- dispatch.rs:823-873. -/
def prodStep (c : Cfg) (s : St) (i : Nat) (m : List Nat) : St :=
  match s.prods i with
  | .idle =>
    if m.length ≠ c.width then s
    else { s with head := s.head + 1, prods := upd s.prods i (.mark m s.head), claimed := s.claimed ++ [m] }
  | .mark m q =>
    { s with ready := upd s.ready (c.idx q) (q + 1, true), prods := upd s.prods i (.write m q 0) }
  | .write m q k =>
    if k < c.width then
      { s with slot := upd s.slot (c.idx q) (upd (s.slot (c.idx q)) k (m.getD k 0)), prods := upd s.prods i (.write m q (k + 1)) }
    else { s with prods := upd s.prods i (.stamp m q) }
  | .stamp _ q =>
    { s with ready := upd s.ready (c.idx q) (q + 1, false), prods := upd s.prods i .idle }

/-- dispatch.rs:1371-1372: behind the ring, or look at the slot. -/
def gate (c : Cfg) (cHead cTail : Nat) : CPc := if cHead - cTail > c.cap then .lag else .load1

/-- dispatch.rs:1349-1539, next access of a subscriber; shared memory is only read. -/
def subStep (c : Cfg) (s : St) (x : Sub) : Sub :=
  match x.pc with
  | .idle => if x.cHead - x.cTail = 0 then { x with pc := .reload } else { x with pc := gate c x.cHead x.cTail }
  | .reload =>
    let h := s.head
    if h - x.cTail = 0 then { x with cHead := h, pc := .idle }
    else { x with cHead := h, pc := gate c h x.cTail }
  | .lag =>
    let h := s.head
    if h > c.cap then
      let resume := h - c.cap + c.cap / 2
      if resume > x.cTail then
        { x with missed := x.missed + (resume - x.cTail), cTail := resume, cHead := h, pc := .idle }
      else { x with pc := .idle }
    else { x with pc := .idle }
  | .load1 =>
    let v := s.ready (c.idx x.cTail)
    if v.2 then { x with pc := .idle }
    else if v.1 < x.cTail + 1 then { x with pc := .idle }
    else if v.1 > x.cTail + 1 then { x with pc := .lag }
    else { x with pc := .read [] }
  | .read acc =>
    if acc.length < c.width then { x with pc := .read (acc ++ [s.slot (c.idx x.cTail) acc.length]) }
    else { x with pc := .recheck acc }
  | .recheck acc =>
    if s.ready (c.idx x.cTail) ≠ (x.cTail + 1, false) then { x with pc := .idle }
    else { x with cTail := x.cTail + 1, received := x.received ++ [(x.cTail, acc)], pc := .idle }

/-- `prod i m`: producer `i`'s next access; `sub i`: subscriber `i`'s next access; `join i start`:
subscriber `i` registers with its cursor at a position not beyond the head (mod.rs:1195-1383). -/
inductive Act
  | prod (i : Nat) (m : List Nat)
  | sub (i : Nat)
  | join (i start : Nat)

/-- One action. Schedules over the functions of topic/dispatch.rs:823-873, 1349-1539. -/
def step (c : Cfg) (s : St) : Act → St
  | .prod i m => prodStep c s i m
  | .sub i => if (s.subs i).joined then { s with subs := upd s.subs i (subStep c s (s.subs i)) } else s
  | .join i start =>
    if (s.subs i).joined = false ∧ start ≤ s.head then
      { s with subs := upd s.subs i ⟨true, start, s.head, start, 0, .idle, []⟩ }
    else s

/-- A schedule. Schedules over the functions of topic/dispatch.rs:823-873, 1349-1539. -/
def run (c : Cfg) (s : St) (as : List Act) : St := as.foldl (step c) s

/-- Only producer 0 publishes. Ghost or helper of the model of topic/dispatch.rs:823-873, 1349-1539. -/
def SingleProducer (as : List Act) : Prop := ∀ i m, Act.prod i m ∈ as → i = 0

end Horus.Ring.Broadcast
