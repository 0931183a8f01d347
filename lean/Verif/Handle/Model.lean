import Verif.Ring.Common
import Verif.Topic.Model
/-
`Topic::send` and `Topic::recv` as a program calls them, on handles of one POD topic whose backend is
the in-order ring (SpscShm or MpscShm: at most one registered subscriber thread. Handles of nodes that
are ticked by the same thread share one participant entry, header.rs:499-523, so any number of them
may exist). A handle that only sends or only receives goes through the ring protocol; a handle that
has done both takes a shortcut.
Sources: /repo/horus_core/src/communication/topic/{mod,dispatch}.rs.
Simplifications: every call is atomic (the interleavings inside the ring protocol are in Verif.Ring),
messages are values of a type `α`, leases, logging and event notification are left out; a handle with
`verbose` set is not modelled.
-/
namespace Horus.Handle
open Horus.Ring

/-- types.rs `TopicRole`. -/
inductive Role | none | producer | consumer | both
deriving DecidableEq, Repr

/-- types.rs `TopicRole::can_send`. -/
def Role.canSend : Role → Bool
  | .producer | .both => true
  | _ => false

/-- types.rs `TopicRole::can_recv`. -/
def Role.canRecv : Role → Bool
  | .consumer | .both => true
  | _ => false

/-- mod.rs:1301-1308: does the role already cover a send (`true`) or a receive? -/
def Role.has (r : Role) : Bool → Bool
  | true => r.canSend
  | false => r.canRecv

/-- local_state.rs `LocalState`: the role, `local_head` and `local_tail`. -/
structure Hnd where
  role : Role
  lh : Nat
  lt : Nat
deriving DecidableEq, Repr

/-- The shared header words `sequence_or_head` and `tail`, the ready flags, the data slots, and the
handles. Source: topic/mod.rs, topic/dispatch.rs. -/
structure St (α : Type) where
  hd : Nat
  tl : Nat
  ready : Nat → Nat
  data : Nat → Option α
  h : Nat → Hnd

/-- header.rs:329-391 `init` and a fresh handle. -/
def St.init (α : Type) : St α := ⟨0, 0, fun _ => 0, fun _ => Option.none, fun _ => ⟨.none, 0, 0⟩⟩

/-- u64 `wrapping_sub`. -/
def sub64 (a b : Nat) : Nat := (a + 2 ^ 64 - b) % 2 ^ 64

/-- The state with handle `i` replaced. Ghost or helper of the model of topic/mod.rs, topic/dispatch.rs. -/
def St.setH {α : Type} (s : St α) (i : Nat) (x : Hnd) : St α := { s with h := upd s.h i x }

/-- mod.rs:1325-1340 in `ensure_role`. -/
def addRole (r : Role) (isPub : Bool) : Role :=
  if isPub then (if r = .consumer then .both else .producer)
  else (if r = .producer then .both else .consumer)

/-- mod.rs:1299-1385 `ensure_role`: nothing if the role is already held; otherwise `sync_local`
(mod.rs:1193-1280, unchanged capacity: `local_head` from the header, `local_tail` the later of the own
and the shared one) and the late-join skip of mod.rs:1359-1371. -/
def ensure {α : Type} (c : Cfg) (s : St α) (i : Nat) (isPub : Bool) : St α :=
  let x := s.h i
  if x.role.has isPub then s
  else
    let lt := max x.lt s.tl
    if isPub = false ∧ sub64 s.hd lt > c.cap then
      { (s.setH i ⟨addRole x.role isPub, s.hd, s.hd - c.cap⟩) with tl := max s.tl (s.hd - c.cap) }
    else s.setH i ⟨addRole x.role isPub, s.hd, lt⟩

/-- dispatch.rs:754-816 `send_shm_mp_pod` without interference: the result says whether the message
was accepted. -/
def mpSend {α : Type} (c : Cfg) (s : St α) (i : Nat) (v : α) : Bool × St α :=
  let x := s.h i
  let lt := if sub64 s.hd x.lt ≥ c.cap then s.tl else x.lt
  if sub64 s.hd lt ≥ c.cap then (false, s.setH i { x with lt := lt })
  else (true, { (s.setH i { x with lt := lt, lh := s.hd + 1 }) with
    hd := s.hd + 1, ready := upd s.ready (c.idx s.hd) (s.hd + 1), data := upd s.data (c.idx s.hd) (some v) })

/-- mod.rs:1733-1738 `try_send`: the dispatched function; the first call registers
(dispatch.rs:1139-1152). -/
def trySend {α : Type} (c : Cfg) (s : St α) (i : Nat) (v : α) : Bool × St α := mpSend c (ensure c s i true) i v

/-- dispatch.rs:1217-1272 `recv_shm_mpsc_pod`. -/
def mpscRecv {α : Type} (c : Cfg) (s : St α) (i : Nat) : Option α × St α :=
  let x := s.h i
  let lh := if x.lh = x.lt then s.hd else x.lh
  if lh = x.lt then (Option.none, s.setH i { x with lh := lh })
  else if s.ready (c.idx x.lt) ≠ x.lt + 1 then (Option.none, s.setH i { x with lh := lh })
  else (s.data (c.idx x.lt), { (s.setH i { x with lh := lh, lt := x.lt + 1 }) with
    tl := if c.flushDue (x.lt + 1) then x.lt + 1 else s.tl })

/-- mod.rs:1746-1751 `try_recv` with the first call of dispatch.rs:1750-1760. -/
def tryRecv {α : Type} (c : Cfg) (s : St α) (i : Nat) : Option α × St α := mpscRecv c (ensure c s i false) i

/-- mod.rs:2041-2081 `send`. With role `Both` and room between its own two counters the handle writes
the data slot and its own `local_head`; otherwise `send_lossy`. Repeating `try_send`
(mod.rs:2132-2186) without interference gives the same answer, so one attempt stands for all; a
message that is not accepted is dropped. -/
def send {α : Type} (c : Cfg) (s : St α) (i : Nat) (v : α) : St α :=
  let x := s.h i
  if x.role = .both ∧ sub64 x.lh x.lt < c.cap then
    { (s.setH i { x with lh := x.lh + 1 }) with data := upd s.data (c.idx x.lh) (some v) }
  else (trySend c s i v).2

/-- mod.rs:2265-2312 `recv`. -/
def recv {α : Type} (c : Cfg) (s : St α) (i : Nat) : Option α × St α :=
  let x := s.h i
  if x.role = .both then
    (if sub64 x.lh x.lt > 0 then (s.data (c.idx x.lt), s.setH i { x with lt := x.lt + 1 }) else (Option.none, s))
  else tryRecv c s i

/-- mod.rs:1879-1990 `handle_epoch_change` of handle `i` (the ring keeps its capacity and slot size):
its counters are pushed into the header, then everything is read back. -/
def epoch {α : Type} (s : St α) (i : Nat) : St α :=
  let x := s.h i
  let tl := if x.role.canRecv then x.lt else s.tl
  let hd := if x.role.canSend then max s.hd x.lh else s.hd
  { (s.setH i { x with lh := hd, lt := Horus.Topic.resyncedTail (max x.lt tl) tl hd true }) with hd := hd, tl := tl }

/-- What can happen on the topic. Schedules over the functions of topic/mod.rs, topic/dispatch.rs. -/
inductive Act (α : Type)
  | send (i : Nat) (v : α)
  | recv (i : Nat)
  | epoch (i : Nat)
deriving DecidableEq, Repr

/-- The handle an action is called on. Schedules over the functions of topic/mod.rs, topic/dispatch.rs. -/
def Act.who {α : Type} : Act α → Nat
  | .send i _ => i
  | .recv i => i
  | .epoch i => i

/-- One call (the functions above): the message returned by a `recv`, tagged with the handle, and the
next state. Schedules over the functions of topic/mod.rs, topic/dispatch.rs. -/
def step {α : Type} (c : Cfg) (s : St α) : Act α → List (Nat × Option α) × St α
  | .send i v => ([], send c s i v)
  | .recv i => ([(i, (recv c s i).1)], (recv c s i).2)
  | .epoch i => ([], epoch s i)

/-- A history of calls: what every `recv` returned, and the final state.
Schedules over the functions of topic/mod.rs, topic/dispatch.rs. -/
def run {α : Type} (c : Cfg) (s : St α) : List (Act α) → List (Nat × Option α) × St α
  | [] => ([], s)
  | a :: as =>
    let r := step c s a
    let q := run c r.2 as
    (r.1 ++ q.1, q.2)

end Horus.Handle
