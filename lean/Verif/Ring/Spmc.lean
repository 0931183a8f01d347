import Verif.Ring.Common
/-
Model of the single-producer ring with competing consumers:
horus_core/src/communication/topic/dispatch.rs:699-747 `send_shm_sp_pod` and 1279-1342
`recv_shm_spmc_pod` (mode SpmcShm), any number of consumers, one transition per access to shared
memory. Simplifications as in `Verif.Ring.Spsc`; the ready flags are not read by these consumers and
are left out.
-/
namespace Horus.Ring.Spmc
open Horus.Ring

/-- Where the producer is inside `send`. Source: topic/dispatch.rs:699-747, 1279-1342. -/
inductive PPc
  | idle
  | refresh (m : List Nat)          -- 713
  | write (m : List Nat) (k : Nat)  -- 727
  | publish (m : List Nat)          -- 744
deriving DecidableEq

/-- Where a consumer is inside `recv`; `a` is the number of failed attempts.
Source: topic/dispatch.rs:699-747, 1279-1342. -/
inductive CPc
  | idle
  | retry (a : Nat)                     -- 1308: load header.tail
  | reload (t a : Nat)                  -- 1310: load header.sequence_or_head
  | cas (t a : Nat)                     -- 1319: compare_exchange_weak on header.tail
  | read (t : Nat) (acc : List Nat)     -- 1332: words copied so far
deriving DecidableEq

/-- A consumer handle: cached head (dispatch.rs:1279-1342) and position. -/
structure Cons where
  cHead : Nat
  pc : CPc

/-- Shared memory (dispatch.rs:699-747, 1279-1342), cached fields, and ghost records of what the API reported. -/
structure St where
  head : Nat
  tail : Nat
  slot : Nat → Nat → Nat
  pTail : Nat
  pPc : PPc
  cons : Nat → Cons
  /-- ghost: accepted messages -/
  sent : List (List Nat)
  /-- ghost: successful claims (consumer, position), in order -/
  claims : List (Nat × Nat)
  /-- ghost: what `recv` returned: consumer, claimed position, value -/
  received : List (Nat × Nat × List Nat)

/-- A fresh region (header.rs:329-391). -/
def St.init : St := ⟨0, 0, fun _ _ => 0, 0, .idle, fun _ => ⟨0, .idle⟩, [], [], []⟩

/-- dispatch.rs:699-747. -/
def prodStep (c : Cfg) (s : St) (m : List Nat) : St :=
  match s.pPc with
  | .idle =>
    if m.length ≠ c.width then s
    else if s.head - s.pTail ≥ c.cap then { s with pPc := .refresh m }
    else { s with pPc := .write m 0 }
  | .refresh m =>
    let t := s.tail
    if s.head - t ≥ c.cap then { s with pTail := t, pPc := .idle }
    else { s with pTail := t, pPc := .write m 0 }
  | .write m k =>
    if k < c.width then
      let i := c.idx s.head
      { s with slot := upd s.slot i (upd (s.slot i) k (m.getD k 0)), pPc := .write m (k + 1) }
    else { s with pPc := .publish m }
  | .publish m => { s with head := s.head + 1, pPc := .idle, sent := s.sent ++ [m] }

/-- dispatch.rs:1303-1306 `drained`, on u64 with wrap-around. -/
def drained (c : Cfg) (h t : Nat) : Bool := decide (h ≤ t) || decide (h - t > c.cap)

/-- Replace consumer `i`. Ghost or helper of the model of topic/dispatch.rs:699-747, 1279-1342. -/
def St.setC (s : St) (i : Nat) (x : Cons) : St := { s with cons := upd s.cons i x }

/-- dispatch.rs:1307-1309: start of an attempt. -/
def loadTail (c : Cfg) (s : St) (i a : Nat) : St :=
  let x := s.cons i
  let t := s.tail
  if drained c x.cHead t then s.setC i ⟨x.cHead, .reload t a⟩ else s.setC i ⟨x.cHead, .cas t a⟩

/-- dispatch.rs:1279-1342, next access of consumer `i`. -/
def consStep (c : Cfg) (s : St) (i : Nat) (spurious : Bool) : St :=
  let x := s.cons i
  match x.pc with
  | .idle => loadTail c s i 0
  | .retry a => loadTail c s i a
  | .reload t a =>
    let h := s.head
    if drained c h t then s.setC i ⟨h, .idle⟩ else s.setC i ⟨h, .cas t a⟩
  | .cas t a =>
    if s.tail = t ∧ spurious = false then
      let s := s.setC i ⟨x.cHead, .read t []⟩
      { s with tail := t + 1, claims := s.claims ++ [(i, t)] }
    else if a + 1 < 8 then s.setC i ⟨x.cHead, .retry (a + 1)⟩
    else s.setC i ⟨x.cHead, .idle⟩
  | .read t acc =>
    if acc.length < c.width then
      s.setC i ⟨x.cHead, .read t (acc ++ [s.slot (c.idx t) acc.length])⟩
    else
      let s := s.setC i ⟨x.cHead, .idle⟩
      { s with received := s.received ++ [(i, t, acc)] }

/-- A schedule entry: the producer's or a consumer's next access.
Schedules over the functions of topic/dispatch.rs:699-747, 1279-1342. -/
inductive Act
  | prod (m : List Nat)
  | cons (i : Nat) (spurious : Bool)

/-- One action. Schedules over the functions of topic/dispatch.rs:699-747, 1279-1342. -/
def step (c : Cfg) (s : St) : Act → St
  | .prod m => prodStep c s m
  | .cons i sp => consStep c s i sp

/-- A schedule. Schedules over the functions of topic/dispatch.rs:699-747, 1279-1342. -/
def run (c : Cfg) (s : St) (as : List Act) : St := as.foldl (step c) s

end Horus.Ring.Spmc
