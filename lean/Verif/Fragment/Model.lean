import Verif.Wire.Model
import Verif.Common.Map
/-
Model of horus_net/src/fragment.rs.

Time is a natural number of nanoseconds; `Instant::now()` is the argument `now`.
Byte counts (`usize`) are naturals; the only place the code uses saturating arithmetic
(`received_bytes.saturating_add`) stays below 2^21, so it never saturates.
-/
namespace Horus.Fragment
open Horus.Wire

/-- fragment.rs:16 `MAX_FRAGMENT_PAYLOAD`. -/
abbrev MAX_FRAGMENT_PAYLOAD : Nat := 1400
/-- fragment.rs:19 `MAX_REASSEMBLY_SIZE` = 1 MiB. -/
abbrev MAX_REASSEMBLY_SIZE : Nat := 1048576
/-- fragment.rs:25-26 `MAX_FRAGMENTS_PER_MESSAGE` = 1 MiB / 1400 + 1. -/
abbrev MAX_FRAGMENTS_PER_MESSAGE : Nat := 749
/-- fragment.rs:30 `MAX_PENDING_MESSAGES`. -/
abbrev MAX_PENDING_MESSAGES : Nat := 256
/-- fragment.rs:33 `FRAGMENT_TIMEOUT` = 100 ms. -/
abbrev FRAGMENT_TIMEOUT : Nat := 100000000

/-- fragment.rs:37-52 `Fragment`. -/
structure Frag where
  topicHash : UInt32
  sequence : UInt32
  timestampNs : UInt64
  priority : Priority
  reliability : Reliability
  encoding : Encoding
  fragmentId : UInt32
  fragmentIndex : UInt16
  fragmentCount : UInt16
  totalPayloadLen : UInt32
  payload : Bytes
  deriving DecidableEq, Repr

/-- `slice::chunks(n)` (std) for `n > 0`; `n = 0` (a panic in Rust) never occurs.
Library function or literal as used by fragment.rs. -/
def chunks (n : Nat) (l : Bytes) : List Bytes :=
  if l = [] ∨ n = 0 then [] else l.take n :: chunks n (l.drop n)
termination_by l.length
decreasing_by
  rename_i h
  have : l.length ≠ 0 := fun e => h (Or.inl (List.length_eq_zero_iff.mp e))
  have : n ≠ 0 := fun e => h (Or.inr e)
  simp; omega

/-- fragment.rs:69-121 `Fragmenter::fragment`; the state is `next_fragment_id`. -/
def fragment (nextId : UInt32) (msg : OutMessage) : UInt32 × List Frag :=
  let mk (id : UInt32) (idx count : UInt16) (payload : Bytes) : Frag :=
    { topicHash := msg.topicHash, sequence := msg.sequence, timestampNs := msg.timestampNs,
      priority := msg.priority, reliability := msg.reliability, encoding := msg.encoding,
      fragmentId := id, fragmentIndex := idx, fragmentCount := count,
      totalPayloadLen := UInt32.ofNat msg.payload.length, payload := payload }
  if msg.payload.length ≤ MAX_FRAGMENT_PAYLOAD then
    (nextId, [mk 0 0 1 msg.payload])
  else if msg.payload.length > MAX_REASSEMBLY_SIZE then
    (nextId, [])
  else
    let cs := chunks MAX_FRAGMENT_PAYLOAD msg.payload
    (nextId + 1,
      cs.zipIdx.map fun (c, i) => mk nextId (UInt16.ofNat i) (UInt16.ofNat cs.length) c)

/-- fragment.rs:131-149 `PendingMessage`. -/
structure Pending where
  fragments : List (Option Bytes)
  receivedCount : Nat
  receivedBytes : Nat
  expectedCount : UInt16
  totalLen : UInt32
  firstSeen : Nat
  topicHash : UInt32
  sequence : UInt32
  timestampNs : UInt64
  priority : Priority
  reliability : Reliability
  encoding : Encoding
  deriving DecidableEq, Repr

/-- fragment.rs:153-162 `ReassembledMessage`. -/
structure Reassembled where
  topicHash : UInt32
  sequence : UInt32
  timestampNs : UInt64
  priority : Priority
  reliability : Reliability
  encoding : Encoding
  payload : Bytes
  deriving DecidableEq, Repr

/-- fragment.rs:165-168 `Reassembler`. -/
abbrev Reassembler := Map (UInt32 × UInt32) Pending

/-- fragment.rs:217-230: a fresh `PendingMessage` for the first fragment of a key. -/
def Pending.fresh (now : Nat) (f : Frag) : Pending :=
  { fragments := List.replicate f.fragmentCount.toNat none, receivedCount := 0, receivedBytes := 0,
    expectedCount := f.fragmentCount, totalLen := f.totalPayloadLen, firstSeen := now,
    topicHash := f.topicHash, sequence := f.sequence, timestampNs := f.timestampNs,
    priority := f.priority, reliability := f.reliability, encoding := f.encoding }

/-- fragment.rs:263-277: concatenate the stored fragments in index order. -/
def Pending.finish (p : Pending) : Reassembled :=
  { topicHash := p.topicHash, sequence := p.sequence, timestampNs := p.timestampNs,
    priority := p.priority, reliability := p.reliability, encoding := p.encoding,
    payload := (p.fragments.filterMap id).flatten }

/-- fragment.rs:180-281 `Reassembler::feed`. `received_count` (u16) is a natural: it never exceeds
the fragment count (≤ 749), see `feed_bounded`. -/
def feed (now : Nat) (r : Reassembler) (f : Frag) : Reassembler × Option Reassembled :=
  if f.totalPayloadLen.toNat > MAX_REASSEMBLY_SIZE then (r, none)
  else if f.fragmentCount.toNat = 0 ∨ f.fragmentCount.toNat > MAX_FRAGMENTS_PER_MESSAGE then (r, none)
  else if f.fragmentCount.toNat = 1 then
    (r, some { topicHash := f.topicHash, sequence := f.sequence, timestampNs := f.timestampNs,
               priority := f.priority, reliability := f.reliability, encoding := f.encoding,
               payload := f.payload })
  else
    let key := (f.topicHash, f.fragmentId)
    if (r.get key).isNone ∧ r.length ≥ MAX_PENDING_MESSAGES then (r, none)
    else
      let idx := f.fragmentIndex.toNat
      let p := (r.get key).getD (Pending.fresh now f)
      let r := r.set key p
      if idx ≥ p.fragments.length then (r, none)
      else
        match p.fragments[idx]? with
        | some none =>
          let newBytes := p.receivedBytes + f.payload.length
          if newBytes > p.totalLen.toNat then (r.del key, none)
          else
            let p' := { p with receivedBytes := newBytes,
                               fragments := p.fragments.set idx (some f.payload),
                               receivedCount := p.receivedCount + 1 }
            if p'.receivedCount = p'.expectedCount.toNat then (r.del key, some p'.finish)
            else (r.set key p', none)
        | _ =>
          if p.receivedCount = p.expectedCount.toNat then (r.del key, some p.finish)
          else (r, none)

/-- fragment.rs:285-290 `gc_stale`. -/
def gcStale (now : Nat) (r : Reassembler) : Reassembler :=
  r.filter fun kp => decide (now - kp.2.firstSeen < FRAGMENT_TIMEOUT)

/-- What happens to a reassembler: fragments arrive and the timer collects stale sets.
Schedules over the functions of fragment.rs. -/
inductive Event
  | arrive (now : Nat) (f : Frag)
  | gc (now : Nat)
  deriving DecidableEq, Repr

/-- One event. Schedules over the functions of fragment.rs. -/
def step (r : Reassembler) : Event → Reassembler × Option Reassembled
  | .arrive now f => feed now r f
  | .gc now => (gcStale now r, none)

/-- A history; the outputs are listed with the event that produced them. Schedules over the functions of fragment.rs. -/
def run (r : Reassembler) : List Event → Reassembler × List (Event × Option Reassembled)
  | [] => (r, [])
  | e :: es =>
    let (r1, o) := step r e
    let (r2, os) := run r1 es
    (r2, (e, o) :: os)

end Horus.Fragment
