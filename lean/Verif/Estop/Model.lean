import Verif.Mac.Model
import Verif.Replicator.Model
/-
Model of horus_net/src/estop.rs (packet codec, authentication, freshness, remote handling, the
broadcaster) and of the e-stop parts of replicator.rs (framing, dispatch).

`lossy` stands for `String::from_utf8_lossy` (any function). Times are `Nat` nanoseconds; the local
wall clock `now` is a parameter. Log lines are not modelled.
-/
namespace Horus.Estop
open Horus.Wire

/-- estop.rs:40 ESTOP_MAC_DOMAIN: the bytes of "horus.estop.v1". -/
def macDomain : Bytes := [104, 111, 114, 117, 115, 46, 101, 115, 116, 111, 112, 46, 118, 49]

/-- estop.rs:86-91 `estop_tag`. `hmac` never fails (Mac.hmac_standard). -/
def estopTag (key body : Bytes) : Bytes := (Mac.hmac key (macDomain ++ body)).getD []

/-- estop.rs:64-83 `encode_estop_with_key`, with the clock reading as a parameter. -/
def encodeEstop (host : UInt16) (reason : Bytes) (key : Option Bytes) (nowNs : UInt64) : Bytes :=
  let reasonLen := min reason.length 200
  let buf := le 2 host.toNat ++ (le 2 reasonLen ++ (reason.take reasonLen ++ le 8 nowNs.toNat))
  match key with
  | some k => buf ++ estopTag k buf
  | none => buf

/-- estop.rs:110-120 `estop_body_len`. -/
def bodyLen (data : Bytes) : Option Nat :=
  if data.length < 12 then none
  else
    let n := 4 + leAt data 2 2 + 8
    if data.length < n then none else some n

/-- estop.rs:123-145 `decode_estop`. -/
def decodeEstop (lossy : Bytes → Bytes) (data : Bytes) : Option (UInt16 × Bytes × Nat) :=
  if data.length < 12 then none
  else
    let reasonLen := leAt data 2 2
    if data.length < 4 + reasonLen + 8 then none
    else some (UInt16.ofNat (leAt data 0 2), lossy (slice data 4 reasonLen), leAt data (4 + reasonLen) 8)

/-- estop.rs:98-104 `verify_estop_tag`; `data.get(a..b)` is `none` past the end. -/
def verifyTag (key data : Bytes) (n : Nat) : Bool :=
  if data.length < n + 32 then false
  else Mac.ctEq (slice data n 32) (estopTag key (data.take n))

/-- estop.rs:157-165 `estop_packet_is_authentic`. -/
def isAuthentic (key : Option Bytes) (data : Bytes) : Bool :=
  match key with
  | none => false
  | some k =>
    match bodyLen data with
    | none => false
    | some n => verifyTag k data n

/-- estop.rs:279-288. -/
inductive Freshness | fresh | stale | clockUnusable
deriving DecidableEq, Repr

/-- `u64::abs_diff`. -/
def absDiff (a b : Nat) : Nat := if a ≤ b then b - a else a - b

/-- estop.rs:343-381 `classify_estop_freshness_at`, constants estop.rs:26-27, 296, 307. -/
def freshness (ts now : Nat) : Freshness :=
  if absDiff now ts ≥ 24 * 60 * 60 * 1000000000 then
    if now < 1577836800000000000 then .clockUnusable else .stale
  else
    let within := if now ≥ ts then decide (now - ts ≤ 5000000000) else decide (ts - now ≤ 5000000000)
    if within then .fresh else .stale

/-- config.rs `EstopRemotePolicy`. -/
inductive Policy | off | warn
deriving DecidableEq, Repr

/-- What is passed to `trigger_external_emergency_stop` (the message is a fixed text with the host
and the reason). Source: estop.rs and replicator.rs:828-876. -/
structure Trigger where
  host : UInt16
  reason : Bytes
deriving DecidableEq, Repr

/-- estop.rs:197-273 `handle_remote_estop_at`; `some t` = the external emergency stop is triggered
with `t` (the code returns true). -/
def handleRemote (lossy : Bytes → Bytes) (data : Bytes) (policy : Policy) (key : Option Bytes)
    (now : Nat) : Option Trigger :=
  match key with
  | none => none
  | some k =>
    match decodeEstop lossy data with
    | none => none
    | some (host, reason, ts) =>
      match bodyLen data with
      | none => none
      | some n =>
        if ¬ verifyTag k data n then none
        else
          match freshness ts now with
          | .stale => none
          | _ =>
            match policy with
            | .off => none
            | .warn => some { host := host, reason := reason }

/-- replicator.rs:467-493: an e-stop message off the wire. `token` is the answer the e-stop token
bucket would give; the second component tells whether the bucket was charged. -/
def dispatch (lossy : Bytes → Bytes) (payload : Bytes) (policy : Policy) (key : Option Bytes)
    (now : Nat) (token : Bool) : Option Trigger × Bool :=
  if ¬ isAuthentic key payload then (none, false)
  else if token then (handleRemote lossy payload policy key now, true)
  else (none, true)

/-- replicator.rs:916-954 `frame_system_topic` for the e-stop topic (`hash`), priority Immediate,
reliability Latched (priority.rs:62-73, 111-119). `none` when it does not fit MAX_UDP_PAYLOAD
(65507, wire.rs). -/
def frameEstop (hash : UInt32) (peer : UInt16) (packetSeq systemSeq : UInt32) (payload : Bytes) :
    Option Bytes :=
  let mh : MessageHeader :=
    { topicHash := hash, payloadLen := UInt32.ofNat payload.length, timestampNs := 0,
      sequence := systemSeq, priority := .immediate, reliability := .latched, encoding := .bincode,
      sourceHost := UInt8.ofNat (peer.toNat % 256) }
  if PH + MH + payload.length > 65507 then none
  else some ((PacketHeader.new 0 peer packetSeq).encode ++ (mh.encode ++ payload))

/-! ### Broadcaster -/

/-- estop.rs:443 a pending retry: (payload, remaining count, due time). -/
structure Retry where
  payload : Bytes
  remaining : Nat
  due : Nat
deriving DecidableEq, Repr

/-- estop.rs:441-446 `EstopBroadcaster`. -/
structure Broadcaster where
  pending : List Retry
  failureReported : Bool
deriving DecidableEq, Repr

/-- One transmission of a payload to the multicast group and every known peer: the payload with
the number of datagrams attempted and accepted (estop.rs:514-527, 554-565). `ok` is the kernel's
answer per destination. -/
structure Transmission where
  payload : Bytes
  attempted : Nat
  sent : Nat
deriving DecidableEq, Repr

/-- estop.rs:514-527: send to all destinations; `oks` lists, per destination, whether the kernel
accepted the datagram. -/
def transmit (payload : Bytes) (oks : List Bool) : Transmission :=
  { payload := payload, attempted := oks.length, sent := oks.count true }

/-- estop.rs:502-538 `broadcast` at time `now` (the three `Instant::now()` calls are taken equal). -/
def broadcast (b : Broadcaster) (now : Nat) (payload : Bytes) (oks : List Bool) :
    Broadcaster × List Transmission :=
  ({ pending := b.pending ++ (List.range 3).map fun i =>
       { payload := payload, remaining := 3 - i, due := now + 10000000 * (i + 1) }
     failureReported := false },
   [transmit payload oks])

/-- `Vec::swap_remove`. Library function or literal as used by estop.rs and replicator.rs:828-876. -/
def swapRemove {α} (l : List α) (i : Nat) : List α :=
  match l.getLast? with
  | none => l
  | some x => (l.set i x).dropLast

/-- estop.rs:550-570: the retry loop. -/
def tickLoop (now : Nat) (oks : List Bool) (l : List Retry) (i : Nat) : List Retry × List Transmission :=
  match h : l[i]? with
  | none => (l, [])
  | some r =>
    if r.due ≤ now then
      let (l', out) := tickLoop now oks (swapRemove l i) i
      (l', transmit r.payload oks :: out)
    else tickLoop now oks l (i + 1)
termination_by l.length - i
decreasing_by
  · have hi := (List.getElem?_eq_some_iff.mp h).1
    have : (swapRemove l i).length = l.length - 1 := by
      unfold swapRemove
      cases hl : l.getLast? with
      | none => rw [List.getLast?_eq_none_iff] at hl; subst hl; simp at hi
      | some x => simp
    omega
  · have hi := (List.getElem?_eq_some_iff.mp h).1
    omega

/-- estop.rs:541-572 `tick`. -/
def tick (b : Broadcaster) (now : Nat) (oks : List Bool) : Broadcaster × List Transmission :=
  let (l, out) := tickLoop now oks b.pending 0
  ({ b with pending := l }, out)

/-- estop.rs:492-499 `should_warn` on the total of one call. -/
def shouldWarn (b : Broadcaster) (out : List Transmission) : Broadcaster × Bool :=
  let attempted : Nat := (out.map Transmission.attempted).sum
  let sent : Nat := (out.map Transmission.sent).sum
  if (attempted > 0 ∧ sent = 0) ∧ b.failureReported = false then ({ b with failureReported := true }, true)
  else (b, false)

/-- The two calls the replicator makes (replicator.rs:828-831, 870-876), each followed by
`should_warn`. -/
inductive Event
  | broadcast (now : Nat) (payload : Bytes) (oks : List Bool)
  | tick (now : Nat) (oks : List Bool)
deriving DecidableEq

/-- One event through the broadcaster (replicator.rs:828-831, 870-876): the datagrams sent and whether a warning is due. -/
def step (b : Broadcaster) : Event → Broadcaster × List Transmission × Bool
  | .broadcast now p oks =>
    let (b, out) := broadcast b now p oks
    let (b, w) := shouldWarn b out
    (b, out, w)
  | .tick now oks =>
    let (b, out) := tick b now oks
    let (b, w) := shouldWarn b out
    (b, out, w)

/-- Run a history; per event, the transmissions made and whether a warning was printed.
Schedules over the functions of estop.rs and replicator.rs:828-876. -/
def run (b : Broadcaster) : List Event → Broadcaster × List (Event × List Transmission × Bool)
  | [] => (b, [])
  | e :: es =>
    let (b1, o) := step b e
    let (b2, os) := run b1 es
    (b2, (e, o) :: os)

end Horus.Estop
