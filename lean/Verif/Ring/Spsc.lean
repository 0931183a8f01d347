import Verif.Ring.Common
/-
Model of the single-producer single-consumer shared-memory ring:
horus_core/src/communication/topic/dispatch.rs:699-747 `send_shm_sp_pod` and 1162-1210
`recv_shm_spsc_pod`. One transition per access to shared memory, in program order, so every
interleaving of the two sides' accesses is a schedule. Simplifications: sequentially consistent
memory (the code's Release/Acquire pairs on head, tail and ready order exactly these accesses);
positions are natural numbers rather than u64 counters that would wrap after 2^64 sends; lease and
epoch housekeeping is not part of the data path and is left out.
-/
namespace Horus.Ring.Spsc
open Horus.Ring

/-- Where the producer is inside `send`. Source: topic/dispatch.rs:699-747, 1162-1210. -/
inductive PPc
  | idle
  | refresh (m : List Nat)          -- 713: load header.tail
  | write (m : List Nat) (k : Nat)  -- 727: word k of the slot
  | stamp (m : List Nat)            -- 741: ready flag
  | publish (m : List Nat)          -- 744: header.sequence_or_head
deriving DecidableEq

/-- Where the consumer is inside `recv`. Source: topic/dispatch.rs:699-747, 1162-1210. -/
inductive CPc
  | idle
  | reload                 -- 1175: load header.sequence_or_head
  | read (acc : List Nat)  -- 1187: words copied so far
  | flush                  -- 1204: store header.tail
deriving DecidableEq

/-- Shared memory, both handles' cached fields, and ghost records of what the API reported.
Ghost or helper of the model of topic/dispatch.rs:699-747, 1162-1210. -/
structure St where
  head : Nat
  tail : Nat
  slot : Nat → Nat → Nat
  ready : Nat → Nat
  pHead : Nat
  pTail : Nat
  pPc : PPc
  cHead : Nat
  cTail : Nat
  cPc : CPc
  /-- messages for which `send` returned Ok, in order -/
  sent : List (List Nat)
  /-- results of the completed `send` calls -/
  results : List Bool
  /-- messages returned by `recv`, in order -/
  received : List (List Nat)

/-- A fresh region (header.rs:329-391 zeroes head and tail). -/
def St.init : St := ⟨0, 0, fun _ _ => 0, fun _ => 0, 0, 0, .idle, 0, 0, .idle, [], [], []⟩

/-- dispatch.rs:699-747, one access at a time. An idle producer starts `send m` (values of the
topic's type have exactly `width` words). -/
def prodStep (c : Cfg) (s : St) (m : List Nat) : St :=
  match s.pPc with
  | .idle =>
    if m.length ≠ c.width then s
    else if s.pHead - s.pTail ≥ c.cap then { s with pPc := .refresh m }
    else { s with pPc := .write m 0 }
  | .refresh m =>
    let t := s.tail
    if s.pHead - t ≥ c.cap then
      { s with pTail := t, pPc := .idle, results := s.results ++ [false] }
    else { s with pTail := t, pPc := .write m 0 }
  | .write m k =>
    if k < c.width then
      let i := c.idx s.pHead
      { s with slot := upd s.slot i (upd (s.slot i) k (m.getD k 0)), pPc := .write m (k + 1) }
    else { s with pPc := .stamp m }
  | .stamp m => { s with ready := upd s.ready (c.idx s.pHead) (s.pHead + 1), pPc := .publish m }
  | .publish m =>
    { s with pHead := s.pHead + 1, head := s.pHead + 1, pPc := .idle, sent := s.sent ++ [m], results := s.results ++ [true] }

/-- dispatch.rs:1162-1210, one access at a time. -/
def consStep (c : Cfg) (s : St) : St :=
  match s.cPc with
  | .idle => if s.cHead - s.cTail = 0 then { s with cPc := .reload } else { s with cPc := .read [] }
  | .reload =>
    let h := s.head
    if h - s.cTail = 0 then { s with cHead := h, cPc := .idle }
    else { s with cHead := h, cPc := .read [] }
  | .read acc =>
    if acc.length < c.width then
      { s with cPc := .read (acc ++ [s.slot (c.idx s.cTail) acc.length]) }
    else
      { s with cTail := s.cTail + 1, received := s.received ++ [acc], cPc := if c.flushDue (s.cTail + 1) then .flush else .idle }
  | .flush => { s with tail := s.cTail, cPc := .idle }

/-- A schedule: which side performs its next access; an idle producer is handed the message.
Schedules over the functions of topic/dispatch.rs:699-747, 1162-1210. -/
inductive Act
  | prod (m : List Nat)
  | cons

/-- One action. Schedules over the functions of topic/dispatch.rs:699-747, 1162-1210. -/
def step (c : Cfg) (s : St) : Act → St
  | .prod m => prodStep c s m
  | .cons => consStep c s

/-- A schedule. Schedules over the functions of topic/dispatch.rs:699-747, 1162-1210. -/
def run (c : Cfg) (s : St) (as : List Act) : St := as.foldl (step c) s

end Horus.Ring.Spsc
