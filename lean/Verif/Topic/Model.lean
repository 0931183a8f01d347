import Mathlib.Data.Nat.Log
import Mathlib.Tactic.Common
/-
Bookkeeping of a shared-memory topic: the participant table, backend selection and dispatch, the
re-synchronisation of read positions, layout binding, ring sizing and region geometry.
Sources: /repo/horus_core/src/communication/topic/{header,mod,types,shm_layout,local_state}.rs.
-/
namespace Horus.Topic

/-! ### Participants -/

/-- header.rs:41 -/
def maxParticipants : Nat := 16

/-- A participant is a thread of a process: (pid, low 32 bits of the hash of the thread id). -/
abbrev Who := Nat × Nat

/-- header.rs:48-68 `ParticipantEntry`; `pub`, `sub` are bits 0 and 1 of `role`. The transient state
active = 2 does not occur between calls (calls are modelled as atomic). -/
structure Entry where
  who : Who
  pub : Bool
  sub : Bool
  active : Bool
  lease : Nat
deriving DecidableEq, Repr

/-- header.rs:74-80 `is_lease_expired`. -/
def Entry.expired (e : Entry) (now : Nat) : Bool := e.lease == 0 || decide (now > e.lease)

/-- header.rs:90-97 `clear`. -/
def Entry.empty : Entry := ⟨(0, 0), false, false, false, 0⟩

/-- The part of `TopicHeader` (header.rs:169-290) registration works on. Counters are u32. -/
structure Hdr where
  entries : List Entry
  pubs : Nat
  subs : Nat
deriving DecidableEq, Repr

/-- header.rs:329-391 `init`: no participants. -/
def Hdr.init : Hdr := ⟨List.replicate maxParticipants Entry.empty, 0, 0⟩

/-- fetch_add(1) and fetch_sub(1) on an AtomicU32. -/
def inc32 (n : Nat) : Nat := (n + 1) % 2 ^ 32
/-- fetch_sub(1) on an AtomicU32. -/
def dec32 (n : Nat) : Nat := (n + 2 ^ 32 - 1) % 2 ^ 32

/-- header.rs:31 DEFAULT_LEASE_TIMEOUT_MS. -/
def leaseMs : Nat := 5000

/-- header.rs:506-523: the role bit is added to the thread's own entry, the lease refreshed. -/
def joinExisting (h : Hdr) (i : Nat) (isPub : Bool) (now : Nat) : Hdr :=
  match h.entries[i]? with
  | none => h
  | some e =>
    let e' : Entry := if isPub then { e with pub := true, lease := now + leaseMs } else { e with sub := true, lease := now + leaseMs }
    { entries := h.entries.set i e'
      pubs := if isPub ∧ e.pub = false then inc32 h.pubs else h.pubs
      subs := if isPub = false ∧ e.sub = false then inc32 h.subs else h.subs }

/-- header.rs:529-572: a slot that is free or whose lease has expired is taken over. -/
def takeSlot (h : Hdr) (i : Nat) (w : Who) (isPub : Bool) (now : Nat) : Hdr :=
  match h.entries[i]? with
  | none => h
  | some e =>
    let pubs := if e.active ∧ e.pub then dec32 h.pubs else h.pubs
    let subs := if e.active ∧ e.sub then dec32 h.subs else h.subs
    { entries := h.entries.set i ⟨w, isPub, !isPub, true, now + leaseMs⟩
      pubs := if isPub then inc32 pubs else pubs
      subs := if isPub then subs else inc32 subs }

/-- header.rs:499-587 `register_role`, one call taken as atomic. `none` is the error. -/
def register (h : Hdr) (w : Who) (isPub : Bool) (now : Nat) : Option Nat × Hdr :=
  match h.entries.findIdx? (fun e => e.active && (e.who == w)) with
  | some i => (some i, joinExisting h i isPub now)
  | none =>
    match h.entries.findIdx? (fun e => !e.active || e.expired now) with
    | some i => (some i, takeSlot h i w isPub now)
    | none => (none, h)

/-- mod.rs:1522-1530 `refresh_lease` through the slot index a handle remembers. -/
def refresh (h : Hdr) (i : Nat) (now : Nat) : Hdr :=
  match h.entries[i]? with
  | none => h
  | some e => { h with entries := h.entries.set i { e with lease := now + leaseMs } }

/-- local_state.rs:14 and dispatch.rs:327-337 `housekeep_lease`: a handle refreshes its lease on every
1024th message only. -/
def refreshInterval : Nat := 1024

/-- What participants do to the table. Schedules over the functions of topic/{header,mod}.rs. -/
inductive Ev
  | register (w : Who) (isPub : Bool) (now : Nat)
  | refresh (slot now : Nat)

/-- One event (header.rs:499-587, mod.rs:1522-1530). -/
def step (h : Hdr) : Ev → Hdr
  | .register w p now => (register h w p now).2
  | .refresh i now => refresh h i now

/-- A history. Schedules over the functions of topic/{header,mod}.rs. -/
def run (h : Hdr) (es : List Ev) : Hdr := es.foldl step h

/-- One message through a handle with slot `i` and message counter `k` at time `now`
(dispatch.rs:327-337). -/
def onMessage (h : Hdr) (i k now : Nat) : Hdr := if (k + 1) % refreshInterval = 0 then refresh h i now else h

/-! ### Backend selection and dispatch -/

/-- types.rs:20-33 -/
inductive Backend | unknown | podShm | mpscShm | spmcShm | spscShm | fanoutShm
deriving DecidableEq, Repr

/-- types.rs:35-48 -/
def Backend.ofU8 : Nat → Backend
  | 6 => .podShm | 7 => .mpscShm | 8 => .spmcShm | 9 => .spscShm | 10 => .fanoutShm | 11 => .fanoutShm
  | _ => .unknown

/-- types.rs:20-33, the discriminants. -/
def Backend.toU8 : Backend → Nat
  | .unknown => 0 | .podShm => 6 | .mpscShm => 7 | .spmcShm => 8 | .spscShm => 9 | .fanoutShm => 11

/-- header.rs:617-643 `detect_optimal_backend`. -/
def detect (pubs subs : Nat) (isPod : Bool) : Backend :=
  if pubs = 0 ∧ subs = 0 then .unknown
  else if pubs ≤ 1 ∧ subs ≤ 1 then .spscShm
  else if pubs > 1 ∧ subs ≤ 1 then .mpscShm
  else if isPod then .podShm
  else .fanoutShm

/-- The protocols of dispatch.rs. -/
inductive SendProto | uninit | fanout | mp | sp | broadcast
deriving DecidableEq, Repr
/-- The receiving protocols of dispatch.rs. -/
inductive RecvProto | uninit | fanout | mpsc | spmc | broadcast
deriving DecidableEq, Repr

/-- mod.rs:1669-1700 `resolve_send_fn` (the POD and serde variants of one protocol are merged). -/
def sendProto (m : Backend) (canSend : Bool) : SendProto :=
  if canSend = false then .uninit
  else match m with
    | .fanoutShm => .fanout
    | .spscShm => .mp
    | .spmcShm => .sp
    | .podShm => .broadcast
    | .mpscShm => .mp
    | .unknown => .mp

/-- mod.rs:1706-1725 `resolve_recv_fn`. -/
def recvProto (m : Backend) (canRecv : Bool) : RecvProto :=
  if canRecv = false then .uninit
  else match m with
    | .fanoutShm => .fanout
    | .spscShm => .mpsc
    | .mpscShm => .mpsc
    | .spmcShm => .spmc
    | .podShm => .broadcast
    | .unknown => .mpsc

/-! ### Read positions -/

/-- mod.rs:762-771 `resynced_tail`. -/
def resyncedTail (localTail sharedTail newHead : Nat) (delivered : Bool) : Nat :=
  if delivered = false then min sharedTail newHead else min (max localTail sharedTail) newHead

/-- mod.rs:1241-1248 in `sync_local`. -/
def syncTail (samePlane : Bool) (localTail sharedTail : Nat) : Nat :=
  if samePlane then max localTail sharedTail else sharedTail

/-- mod.rs:1359-1371 in `ensure_role`; differences are u64 and wrap. -/
def lateJoin (head tail cap : Nat) : Nat :=
  if cap > 0 ∧ (head + 2 ^ 64 - tail) % 2 ^ 64 > cap then (head + 2 ^ 64 - cap) % 2 ^ 64 else tail

/-- Shared header and the cursors of the subscribers of one topic. Source: topic/{header,mod}.rs. -/
structure Cursors where
  head : Nat
  tail : Nat
  pos : Nat → Nat
  missed : Nat → Nat

/-- What moves them: a message is published; subscriber `i` reads one; `i` enters
`handle_epoch_change` and stores its position (mod.rs:1900-1903); `i` re-reads head and tail
(mod.rs:1923 `sync_local` with an unchanged capacity, then 1952-1980). The last two are separate
accesses to shared memory, so other participants may come in between. -/
inductive CAct
  | publish
  | read (i : Nat)
  | flush (i : Nat)
  | resync (i : Nat)

/-- One action (mod.rs:1923, 1952-1980). -/
def cstep (s : Cursors) : CAct → Cursors
  | .publish => { s with head := s.head + 1 }
  | .read i => if s.pos i < s.head then { s with pos := fun j => if j = i then s.pos i + 1 else s.pos j } else s
  | .flush i => { s with tail := s.pos i }
  | .resync i =>
    { s with pos := fun j => if j = i then resyncedTail (syncTail true (s.pos i) s.tail) s.tail s.head true else s.pos j }

/-- A schedule. Schedules over the functions of topic/{header,mod}.rs. -/
def crun (s : Cursors) (as : List CAct) : Cursors := as.foldl cstep s

/-! ### Layout binding -/

/-- mod.rs:823-857 `bind_layout_hash`: one compare-exchange on the header word; returns whether the
handle is admitted, and the new word. -/
def bindLayout (word hash : Nat) : Bool × Nat :=
  if hash = 0 then (true, word)
  else if word = 0 then (true, hash)
  else if word = hash then (true, word)
  else (false, word)

/-- Joins in the order of their compare-exchanges. Source: topic/{header,mod}.rs. -/
def bindAll (word : Nat) : List Nat → List Bool × Nat
  | [] => ([], word)
  | h :: hs =>
    let r := bindLayout word h
    let rest := bindAll r.2 hs
    (r.1 :: rest.1, rest.2)

/-! ### Sizing -/

/-- u32::next_power_of_two in a release build: the smallest power of two at least `n`, and 0 when
that does not fit 32 bits. -/
def nextPow2 (n : Nat) : Nat := if 2 ^ Nat.clog 2 n < 2 ^ 32 then 2 ^ Nat.clog 2 n else 0

/-- mod.rs:615-636 `auto_capacity`. -/
def autoCapacity (typeSize : Nat) : Nat :=
  if typeSize = 0 then 16 else nextPow2 (min (max (4096 / typeSize) 16) 1024)

/-- mod.rs:936-951, bytes allocated per slot. -/
def slotBytes (isPod : Bool) (typeSize : Nat) (slotSize : Option Nat) : Nat :=
  if isPod then (if typeSize + 8 ≤ 64 then 64 else typeSize) else slotSize.getD 8192

/-- mod.rs:911-934, the argument checks (the name check is separate). -/
def argsOk (capacity : Nat) (slotSize : Option Nat) : Bool :=
  decide (capacity ≠ 0) && (match slotSize with
    | none => true
    | some s => decide (s ≠ 0) && decide (s ≤ 1024 * 1024))

/-- shm_layout.rs:118-160 and mod.rs:953-956. -/
def headerSize : Nat := 640
/-- shm_layout.rs:118-160: the sequence word of slot `i`. -/
def seqSlotOffset (i : Nat) : Nat := headerSize + i * 8
/-- shm_layout.rs:118-160: where the data slots begin. -/
def dataRegionOffset (cap : Nat) : Nat := headerSize + cap * 8
/-- shm_layout.rs:118-160: data slot `i`. -/
def dataSlotOffset (cap i stride : Nat) : Nat := dataRegionOffset cap + i * stride
/-- mod.rs:953-956: length of the region. -/
def regionLen (cap stride : Nat) : Nat := headerSize + cap * 8 + cap * stride

/-- header.rs:340 and 372: the ring's capacity and mask (u32, wrapping). -/
def ringCapacity (requested : Nat) : Nat := nextPow2 requested
/-- header.rs:372: the mask. -/
def ringMask (requested : Nat) : Nat := (nextPow2 requested + 2 ^ 32 - 1) % 2 ^ 32

/-- mod.rs:953-956, bytes mapped for a topic created with these arguments. -/
def mappedLen (requested : Nat) (isPod : Bool) (typeSize : Nat) (slotSize : Option Nat) : Nat :=
  regionLen (nextPow2 requested) (slotBytes isPod typeSize slotSize)

/-- The stride the data plane uses: the size of the type for POD, the slot size otherwise
(shm_layout.rs:32). -/
def stride (isPod : Bool) (typeSize : Nat) (slotSize : Option Nat) : Nat :=
  if isPod then typeSize else slotSize.getD 8192

end Horus.Topic
