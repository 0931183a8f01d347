import Verif.Wire.Model
import Verif.Common.Map
/-
Model of horus_net/src/reliability.rs and `enforce_key_cap` of netfilter.rs.
Time is a natural number of nanoseconds. HashMap iteration order is the association-list order
(the code's result does not depend on it except for the order of the returned resends).
-/
namespace Horus.Reliability
open Horus.Wire

/-- netfilter.rs:300 `MAX_TRACKED_KEYS`. -/
abbrev MAX_TRACKED_KEYS : Nat := 4096

/-- netfilter.rs:319-336 `enforce_key_cap` (always returns `true`; the warning flag only
controls printing). -/
def enforceKeyCap {κ ν : Type} (m : Map κ ν) : Map κ ν :=
  if m.length < MAX_TRACKED_KEYS then m else []

/-- reliability.rs:37 `dedup`: (sender hash, topic hash) → last seen sequence. -/
abbrev Dedup := Map (UInt16 × UInt32) UInt32

/-- reliability.rs:123-126: is this sequence number a duplicate or old?
`last_seq.wrapping_sub(sequence) < u32::MAX / 2`. -/
def isOld (lastSeq seq : UInt32) : Bool :=
  decide (seq ≤ lastSeq) && decide (lastSeq - seq < 0x7FFFFFFF)

/-- reliability.rs:120-132 `is_new_message`. -/
def isNewMessage (d : Dedup) (sender : UInt16) (topic seq : UInt32) : Dedup × Bool :=
  let key := (sender, topic)
  let old := match d.get key with
    | some last => isOld last seq
    | none => false
  if old then (d, false)
  else ((enforceKeyCap d).set key seq, true)

/-- reliability.rs:135-162 `dedup_messages`; `isSystem` is registry.rs:110-114
`is_system_topic_hash`. -/
def dedupMessages (isSystem : UInt32 → Bool) (d : Dedup) (sender : UInt16) :
    List InMessage → Dedup × List InMessage
  | [] => (d, [])
  | m :: ms =>
    if isSystem m.topicHash then
      let (d', out) := dedupMessages isSystem d sender ms
      (d', m :: out)
    else
      let (d1, new) := isNewMessage d sender m.topicHash m.sequence
      let (d', out) := dedupMessages isSystem d1 sender ms
      (d', if new then m :: out else out)

/-- reliability.rs:54-60 `copies_for`. -/
def copiesFor : Reliability → Nat
  | .latched => 3 | .redundant => 2 | .none => 1

/-- reliability.rs:16 `MAX_LATCH_RESENDS`. -/
abbrev MAX_LATCH_RESENDS : Nat := 100
/-- reliability.rs:19 `LATCH_RESEND_INTERVAL` = 10 ms. -/
abbrev LATCH_RESEND_INTERVAL : Nat := 10000000

/-- reliability.rs:23-29 `LatchedEntry` (topic and sequence are the map key). -/
structure Latched where
  payload : Bytes
  resendCount : Nat
  lastSent : Nat
  deriving DecidableEq, Repr

/-- reliability.rs:34 `latched`. -/
abbrev Latches := Map (UInt32 × UInt32) Latched

/-- reliability.rs:68-80 `start_latch`. -/
def startLatch (now : Nat) (l : Latches) (topic seq : UInt32) (payload : Bytes) : Latches :=
  l.set (topic, seq) { payload := payload, resendCount := 0, lastSent := now }

/-- reliability.rs:83-86 `on_ack`. -/
def onAck (l : Latches) (topic seq : UInt32) : Latches := l.del (topic, seq)

/-- reliability.rs:96-110, one entry: `none` = give up and remove, otherwise the entry to keep and
whether it is resent now. -/
def tickEntry (now : Nat) (e : Latched) : Option (Latched × Bool) :=
  if now - e.lastSent ≥ LATCH_RESEND_INTERVAL then
    if e.resendCount ≥ MAX_LATCH_RESENDS then none
    else some ({ e with resendCount := e.resendCount + 1, lastSent := now }, true)
  else some (e, false)

/-- reliability.rs:91-117 `tick_resends`: the new table and the resent (topic, sequence, payload). -/
def tickResends (now : Nat) : Latches → Latches × List (UInt32 × UInt32 × Bytes)
  | [] => ([], [])
  | (k, e) :: rest =>
    let (l, out) := tickResends now rest
    match tickEntry now e with
    | none => (l, out)
    | some (e', true) => ((k, e') :: l, (k.1, k.2, e'.payload) :: out)
    | some (e', false) => ((k, e') :: l, out)

/-- What happens to the reliability layer of a sender. Schedules over the functions of reliability.rs. -/
inductive Event
  | latch (now : Nat) (topic seq : UInt32) (payload : Bytes)
  | ack (topic seq : UInt32)
  | tick (now : Nat)
  deriving DecidableEq, Repr

/-- One event; the output is the list of resends. Schedules over the functions of reliability.rs. -/
def step (l : Latches) : Event → Latches × List (UInt32 × UInt32 × Bytes)
  | .latch now t s p => (startLatch now l t s p, [])
  | .ack t s => (onAck l t s, [])
  | .tick now => tickResends now l

/-- A history, with each event's output. Schedules over the functions of reliability.rs. -/
def run (l : Latches) : List Event → Latches × List (Event × List (UInt32 × UInt32 × Bytes))
  | [] => (l, [])
  | e :: es =>
    let (l1, o) := step l e
    let (l2, os) := run l1 es
    (l2, (e, o) :: os)

end Horus.Reliability
