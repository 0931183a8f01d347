import Verif.Ring.Common
/-
Model of the multi-producer single-consumer shared-memory ring:
horus_core/src/communication/topic/dispatch.rs:754-816 `send_shm_mp_pod` and 1217-1272
`recv_shm_mpsc_pod`, any number of producers, one transition per access to shared memory.
Simplifications as in `Verif.Ring.Spsc`.
-/
namespace Horus.Ring.Mpsc
open Horus.Ring

/-- Where a producer is inside `send`. Source: topic/dispatch.rs:754-816, 1217-1272. -/
inductive PPc
  | idle
  | retry (m : List Nat)                      -- 783: load header.sequence_or_head again
  | refresh (m : List Nat) (h : Nat)          -- 785: load header.tail
  | cas (m : List Nat) (h : Nat)              -- 790: compare_exchange_weak
  | write (m : List Nat) (seq k : Nat)        -- 808: word k of the slot
  | stamp (m : List Nat) (seq : Nat)          -- 811: ready flag
deriving DecidableEq

/-- Where the consumer is inside `recv`. Source: topic/dispatch.rs:754-816, 1217-1272. -/
inductive CPc
  | idle
  | reload                 -- 1230: load header.sequence_or_head
  | check                  -- 1243: load ready flag
  | read (acc : List Nat)  -- 1254: words copied so far
  | flush                  -- 1267: store header.tail
deriving DecidableEq

/-- A producer handle: cached tail and position. Source: topic/dispatch.rs:754-816, 1217-1272. -/
structure Prod where
  pTail : Nat
  pc : PPc

/-- Shared memory (dispatch.rs:754-816, 1217-1272), every handle's cached fields, and ghost records of what the API reported. -/
structure St where
  head : Nat
  tail : Nat
  slot : Nat → Nat → Nat
  ready : Nat → Nat
  prods : Nat → Prod
  cHead : Nat
  cTail : Nat
  cPc : CPc
  /-- ghost: who claimed each position, with which message -/
  claimed : List (Nat × List Nat)
  /-- ghost: messages for which producer `i`'s `send` returned Ok, in order -/
  sent : Nat → List (List Nat)
  /-- ghost: number of `send` calls of producer `i` that returned Err -/
  failed : Nat → Nat
  /-- messages returned by `recv`, in order -/
  received : List (List Nat)

/-- A fresh region (header.rs:329-391). -/
def St.init : St :=
  ⟨0, 0, fun _ _ => 0, fun _ => 0, fun _ => ⟨0, .idle⟩, 0, 0, .idle, [], fun _ => [], fun _ => 0, []⟩

/-- `head.wrapping_sub(tail) >= capacity` on u64: true also when the tail is ahead of the (stale)
head, where the difference wraps to a huge number. -/
def isFull (c : Cfg) (h t : Nat) : Bool := decide (h < t) || decide (h - t ≥ c.cap)

/-- Replace producer `i`. Ghost or helper of the model of topic/dispatch.rs:754-816, 1217-1272. -/
def St.setP (s : St) (i : Nat) (p : Prod) : St := { s with prods := upd s.prods i p }

/-- dispatch.rs:782-788: the head is loaded and compared with the cached tail. -/
def loadHead (c : Cfg) (s : St) (i : Nat) (m : List Nat) : St :=
  let p := s.prods i
  if isFull c s.head p.pTail then s.setP i ⟨p.pTail, .refresh m s.head⟩
  else s.setP i ⟨p.pTail, .cas m s.head⟩

/-- dispatch.rs:754-816, the next access of producer `i`. `spurious` lets compare_exchange_weak fail
for no reason. -/
def prodStep (c : Cfg) (s : St) (i : Nat) (m : List Nat) (spurious : Bool) : St :=
  let p := s.prods i
  match p.pc with
  | .idle => if m.length ≠ c.width then s else loadHead c s i m
  | .retry m => loadHead c s i m
  | .refresh m h =>
    let t := s.tail
    if isFull c h t then
      let s := s.setP i ⟨t, .idle⟩
      { s with failed := upd s.failed i (s.failed i + 1) }
    else s.setP i ⟨t, .cas m h⟩
  | .cas m h =>
    if s.head = h ∧ spurious = false then
      let s := s.setP i ⟨p.pTail, .write m h 0⟩
      { s with head := h + 1, claimed := s.claimed ++ [(i, m)] }
    else s.setP i ⟨p.pTail, .retry m⟩
  | .write m seq k =>
    if k < c.width then
      let j := c.idx seq
      let s := s.setP i ⟨p.pTail, .write m seq (k + 1)⟩
      { s with slot := upd s.slot j (upd (s.slot j) k (m.getD k 0)) }
    else s.setP i ⟨p.pTail, .stamp m seq⟩
  | .stamp m seq =>
    let s := s.setP i ⟨p.pTail, .idle⟩
    { s with ready := upd s.ready (c.idx seq) (seq + 1), sent := upd s.sent i (s.sent i ++ [m]) }

/-- dispatch.rs:1217-1272, the next access of the consumer. -/
def consStep (c : Cfg) (s : St) : St :=
  match s.cPc with
  | .idle => if s.cHead - s.cTail = 0 then { s with cPc := .reload } else { s with cPc := .check }
  | .reload =>
    let h := s.head
    if h - s.cTail = 0 then { s with cHead := h, cPc := .idle }
    else { s with cHead := h, cPc := .check }
  | .check =>
    if s.ready (c.idx s.cTail) = s.cTail + 1 then { s with cPc := .read [] } else { s with cPc := .idle }
  | .read acc =>
    if acc.length < c.width then
      { s with cPc := .read (acc ++ [s.slot (c.idx s.cTail) acc.length]) }
    else
      { s with cTail := s.cTail + 1, received := s.received ++ [acc], cPc := if c.flushDue (s.cTail + 1) then .flush else .idle }
  | .flush => { s with tail := s.cTail, cPc := .idle }

/-- A schedule entry: a producer's or the consumer's next access.
Schedules over the functions of topic/dispatch.rs:754-816, 1217-1272. -/
inductive Act
  | prod (i : Nat) (m : List Nat) (spurious : Bool)
  | cons

/-- One action. Schedules over the functions of topic/dispatch.rs:754-816, 1217-1272. -/
def step (c : Cfg) (s : St) : Act → St
  | .prod i m sp => prodStep c s i m sp
  | .cons => consStep c s

/-- A schedule. Schedules over the functions of topic/dispatch.rs:754-816, 1217-1272. -/
def run (c : Cfg) (s : St) (as : List Act) : St := as.foldl (step c) s

end Horus.Ring.Mpsc
