import Verif.Discovery.Model
import Verif.Fragment.Model
import Verif.Reliability.Model
/-
Model of the send and receive paths of horus_net/src/replicator.rs that connect the wire codec,
fragmentation and deduplication: `handle_export` (for one message) and `process_packet` (for one
datagram, up to the call of `process_incoming_message`).

Not modelled here: peer filter (see Verif/NetFilter), flow control and metrics, the socket.
The incoming optimizer chain is the identity (optimize/mod.rs:104-113; every `on_incoming` is a
no-op).
-/
namespace Horus.Replicator
open Horus.Wire Horus.Discovery Horus.Fragment Horus.Reliability

/-- replicator.rs:638-656: the `OutMessage` built for one fragment. -/
def fragOut (m : OutMessage) (f : Frag) : OutMessage :=
  { topicName := m.topicName, topicHash := f.topicHash, payload := f.payload,
    timestampNs := f.timestampNs, sequence := f.sequence, priority := f.priority,
    reliability := f.reliability, encoding := f.encoding }

/-- replicator.rs:626-663: the packet for one fragment (note: the fragment header is never
written). `[]` means `encode_single` returned 0 and the packet is skipped. -/
def fragPacket (sender : UInt16) (seq : UInt32) (m : OutMessage) (f : Frag) : Bytes :=
  let flags := if f.fragmentCount.toNat > 1 then 0 ||| F_FRAGMENT else 0
  encodeSingle 65536 (PacketHeader.new flags sender seq) (fragOut m f)

/-- replicator.rs:609-676: all packets sent for one message (one copy of each; the code sends
`copies_for` copies of each packet). `next_packet_seq` is a wrapping counter. -/
def exportMessage (nextId : UInt32) (sender : UInt16) (seq0 : UInt32) (m : OutMessage) : List Bytes :=
  ((fragment nextId m).2.zipIdx.map fun (f, i) => fragPacket sender (seq0 + UInt32.ofNat i) m f).filter
    (· ≠ [])

/-- The receive-side state that matters here. Source: replicator.rs:285-428, 577-686. -/
structure Receiver where
  reasm : Reassembler
  dedup : Dedup

/-- replicator.rs:372-397: parse a fragment packet. -/
def parseFragment (buf : Bytes) : Option Frag :=
  match MessageHeader.decode (buf.drop PH) with
  | none => none
  | some mh =>
    match FragmentHeader.decode (buf.drop (PH + MH)) with
    | none => none
    | some fh => some
      { topicHash := mh.topicHash, sequence := mh.sequence, timestampNs := mh.timestampNs,
        priority := mh.priority, reliability := mh.reliability, encoding := mh.encoding,
        fragmentId := fh.fragmentId, fragmentIndex := fh.fragmentIndex,
        fragmentCount := fh.fragmentCount, totalPayloadLen := fh.totalPayloadLen,
        payload := buf.drop (PH + MH + FH) }

/-- replicator.rs:399-409: a reassembled message as an incoming message. -/
def ofReassembled (r : Reassembled) : InMessage :=
  { topicHash := r.topicHash, payload := r.payload, timestampNs := r.timestampNs,
    sequence := r.sequence, priority := r.priority, reliability := r.reliability,
    encoding := r.encoding }

/-- replicator.rs:316-428 `process_packet` for data packets: the messages handed to
`process_incoming_message`. Announcements, heartbeats and acknowledgements hand over nothing. -/
def receive (utf8 : Bytes → Bool) (isSystem : UInt32 → Bool) (now : Nat) (rx : Receiver)
    (buf : Bytes) : Receiver × List InMessage :=
  match classify utf8 buf with
  | .announcement _ => (rx, [])
  | .heartbeat _ => (rx, [])
  | .ack _ => (rx, [])
  | .rejected => (rx, [])
  | .fragment =>
    match parseFragment buf with
    | none => (rx, [])
    | some f =>
      let (r, o) := feed now rx.reasm f
      ({ rx with reasm := r }, (o.map ofReassembled).toList)
  | .data ms =>
    let sender := UInt16.ofNat (leAt buf 6 2)
    let (d, out) := dedupMessages isSystem rx.dedup sender ms
    ({ rx with dedup := d }, out)

/-- replicator.rs:554-569: does processing this message emit an acknowledgement?
(the case with no early return: neither a system topic nor rejected by the import guard, see
`processOrdinary`). -/
def ackFor (m : InMessage) : Option AckPayload :=
  if m.reliability = .latched then some { ackedTopicHash := m.topicHash, ackedSequence := m.sequence } else none

/-- What the importing host knows about the topic of a message (replicator.rs:494-552): the guard's verdict
on its name if the hash is known, the type hashes (0 = unknown), and whether a local ring exists. -/
structure ImportCtx where
  guardAllows : Option Bool
  localType : Nat
  remoteType : Nat
  hasWriter : Bool

/-- `process_incoming_message` for an ordinary topic (replicator.rs:494-570): whether the payload is
written to the local ring, and the acknowledgement sent. The byte-order conversion is left out. -/
def processOrdinary (c : ImportCtx) (m : InMessage) : Bool × Option AckPayload :=
  if c.guardAllows = some false then (false, none)
  else if c.guardAllows.isSome ∧ c.localType ≠ 0 ∧ c.remoteType ≠ 0 ∧ c.localType ≠ c.remoteType then (false, none)
  else (c.hasWriter, ackFor m)

/-- The sender's side of a packet (replicator.rs:361-370): an acknowledgement ends the latch. -/
def onPacketAck (utf8 : Bytes → Bool) (l : Latches) (buf : Bytes) : Latches :=
  match classify utf8 buf with
  | .ack (some a) => onAck l a.ackedTopicHash a.ackedSequence
  | _ => l

/-- replicator.rs:747-764: the packet of one latched resend. -/
def resendPacket (sender : UInt16) (seq : UInt32) (r : UInt32 × UInt32 × Bytes) : Bytes :=
  encodeSingle 65536 (PacketHeader.new 0 sender seq)
    { topicName := [], topicHash := r.1, payload := r.2.2, timestampNs := 0, sequence := r.2.1,
      priority := .immediate, reliability := .latched, encoding := .podLe }

end Horus.Replicator
