import Verif.Common.Bytes
/-
Model of horus_net/src/wire.rs (packet and message headers, full-packet encoders and
decoder) and of the enums of horus_net/src/priority.rs they carry.

Simplifications, common to the file:
* an encoder that writes into `buf: &mut [u8]` and returns the number of bytes written is
  modelled as returning the written prefix `buf[..n]` (what the caller sends);
* `usize` additions of offsets are in `Nat` (buffer lengths are far below 2^63).
-/
namespace Horus.Wire

/-- wire.rs:20 `MAGIC`. -/
def MAGIC : UInt32 := 0x484F5253
/-- wire.rs:23 `VERSION`. -/
def VERSION : UInt8 := 1
/-- wire.rs:26 `MAX_UDP_PAYLOAD`. -/
def MAX_UDP_PAYLOAD : Nat := 65507

/-- priority.rs:8-17. -/
inductive Priority | immediate | realTime | normal | bulk
  deriving DecidableEq, Repr
/-- priority.rs:8-17 (`as u8`). -/
def Priority.toU8 : Priority → UInt8
  | .immediate => 0 | .realTime => 1 | .normal => 2 | .bulk => 3
/-- priority.rs:21-29 `Priority::from_u8`. -/
def Priority.ofU8 (v : UInt8) : Priority :=
  if v = 0 then .immediate else if v = 1 then .realTime else if v = 2 then .normal
  else if v = 3 then .bulk else .normal

/-- priority.rs:91-98. -/
inductive Reliability | none | redundant | latched
  deriving DecidableEq, Repr
/-- priority.rs:91-98 (`as u8`). -/
def Reliability.toU8 : Reliability → UInt8
  | .none => 0 | .redundant => 1 | .latched => 2
/-- priority.rs:101-108 `Reliability::from_u8`. -/
def Reliability.ofU8 (v : UInt8) : Reliability :=
  if v = 0 then .none else if v = 1 then .redundant else if v = 2 then .latched else .none
/-- priority.rs:122-129 `Reliability::default_for`. -/
def Reliability.defaultFor : Priority → Reliability
  | .immediate => .latched | .realTime => .redundant | .normal => .none | .bulk => .none

/-- priority.rs:135-142. -/
inductive Encoding | podLe | podBe | bincode
  deriving DecidableEq, Repr
/-- priority.rs:135-142 (`as u8`). -/
def Encoding.toU8 : Encoding → UInt8
  | .podLe => 0 | .podBe => 1 | .bincode => 2
/-- priority.rs:145-152 `Encoding::from_u8`. -/
def Encoding.ofU8 (v : UInt8) : Encoding :=
  if v = 0 then .podLe else if v = 1 then .podBe else if v = 2 then .bincode else .bincode

/-! Packet flags, wire.rs:102-107. -/
/-- wire.rs:102. -/
def F_BATCH : UInt8 := 1
/-- wire.rs:103. -/
def F_DELTA : UInt8 := 2
/-- wire.rs:104. -/
def F_COMPRESSED : UInt8 := 4
/-- wire.rs:105. -/
def F_FRAGMENT : UInt8 := 8
/-- wire.rs:106. -/
def F_HEARTBEAT : UInt8 := 16
/-- wire.rs:107. -/
def F_ACK : UInt8 := 32

/-- wire.rs:125-147: a flag test `self.0 & FLAG != 0`. -/
def hasFlag (flags f : UInt8) : Bool := flags &&& f != 0

/-- wire.rs:32-43 `PacketHeader`. -/
structure PacketHeader where
  magic : UInt32
  version : UInt8
  flags : UInt8
  senderIdHash : UInt16
  packetSequence : UInt32
  deriving DecidableEq, Repr

/-- wire.rs:48-56 `PacketHeader::new`. -/
def PacketHeader.new (flags : UInt8) (sender : UInt16) (seq : UInt32) : PacketHeader :=
  { magic := MAGIC, version := VERSION, flags := flags, senderIdHash := sender, packetSequence := seq }

/-- wire.rs:46 `PacketHeader::SIZE`. -/
abbrev PH : Nat := 12
/-- wire.rs:181 `MessageHeader::SIZE`. -/
abbrev MH : Nat := 24

/-- wire.rs:59-66 `PacketHeader::encode`. -/
def PacketHeader.encode (h : PacketHeader) : Bytes :=
  le 4 h.magic.toNat ++ ([h.version] ++ ([h.flags] ++ (le 2 h.senderIdHash.toNat ++ le 4 h.packetSequence.toNat)))

/-- wire.rs:69-92 `PacketHeader::decode`. -/
def PacketHeader.decode (buf : Bytes) : Option PacketHeader :=
  if buf.length < PH then none
  else
    let magic := UInt32.ofNat (leAt buf 0 4)
    if magic ≠ MAGIC then none
    else
      let version := UInt8.ofNat (leAt buf 4 1)
      if version ≠ VERSION then none
      else some
        { magic := magic
          version := version
          flags := UInt8.ofNat (leAt buf 5 1)
          senderIdHash := UInt16.ofNat (leAt buf 6 2)
          packetSequence := UInt32.ofNat (leAt buf 8 4) }

/-- wire.rs:155-176 `MessageHeader`. -/
structure MessageHeader where
  topicHash : UInt32
  payloadLen : UInt32
  timestampNs : UInt64
  sequence : UInt32
  priority : Priority
  reliability : Reliability
  encoding : Encoding
  sourceHost : UInt8
  deriving DecidableEq, Repr

/-- wire.rs:184-194 `MessageHeader::encode`. -/
def MessageHeader.encode (m : MessageHeader) : Bytes :=
  le 4 m.topicHash.toNat ++ (le 4 m.payloadLen.toNat ++ (le 8 m.timestampNs.toNat ++
  (le 4 m.sequence.toNat ++ ([m.priority.toU8] ++ ([m.reliability.toU8] ++
  ([m.encoding.toU8] ++ [m.sourceHost]))))))

/-- wire.rs:197-213 `MessageHeader::decode`. -/
def MessageHeader.decode (buf : Bytes) : Option MessageHeader :=
  if buf.length < MH then none
  else some
    { topicHash := UInt32.ofNat (leAt buf 0 4)
      payloadLen := UInt32.ofNat (leAt buf 4 4)
      timestampNs := UInt64.ofNat (leAt buf 8 8)
      sequence := UInt32.ofNat (leAt buf 16 4)
      priority := Priority.ofU8 (UInt8.ofNat (leAt buf 20 1))
      reliability := Reliability.ofU8 (UInt8.ofNat (leAt buf 21 1))
      encoding := Encoding.ofU8 (UInt8.ofNat (leAt buf 22 1))
      sourceHost := UInt8.ofNat (leAt buf 23 1) }

/-- wire.rs:222-232 `fnv1a_hash` (`wrapping_mul` on u32). -/
def fnv1a (data : Bytes) : UInt32 :=
  data.foldl (fun h b => (h ^^^ b.toUInt32) * 16777619) 2166136261

/-- wire.rs:243-252 `FragmentHeader`. -/
structure FragmentHeader where
  fragmentId : UInt32
  fragmentIndex : UInt16
  fragmentCount : UInt16
  totalPayloadLen : UInt32
  deriving DecidableEq, Repr

/-- wire.rs:255 `FragmentHeader::SIZE`. -/
abbrev FH : Nat := 12

/-- wire.rs:257-263 `FragmentHeader::encode`. -/
def FragmentHeader.encode (f : FragmentHeader) : Bytes :=
  le 4 f.fragmentId.toNat ++ (le 2 f.fragmentIndex.toNat ++ (le 2 f.fragmentCount.toNat ++
  le 4 f.totalPayloadLen.toNat))

/-- wire.rs:265-275 `FragmentHeader::decode`. -/
def FragmentHeader.decode (buf : Bytes) : Option FragmentHeader :=
  if buf.length < FH then none
  else some
    { fragmentId := UInt32.ofNat (leAt buf 0 4)
      fragmentIndex := UInt16.ofNat (leAt buf 4 2)
      fragmentCount := UInt16.ofNat (leAt buf 6 2)
      totalPayloadLen := UInt32.ofNat (leAt buf 8 4) }

/-- wire.rs:283-288 `HeartbeatPayload`; the `[u8; 16]` is a byte list whose length is 16
(hypothesis `peerId.length = 16` where it matters). -/
structure HeartbeatPayload where
  peerId : Bytes
  heartbeatSequence : UInt32
  deriving DecidableEq, Repr

/-- wire.rs:293-297 `HeartbeatPayload::encode`. -/
def HeartbeatPayload.encode (p : HeartbeatPayload) : Bytes :=
  p.peerId ++ le 4 p.heartbeatSequence.toNat

/-- wire.rs:299-309 `HeartbeatPayload::decode`. -/
def HeartbeatPayload.decode (buf : Bytes) : Option HeartbeatPayload :=
  if buf.length < 20 then none
  else some { peerId := slice buf 0 16, heartbeatSequence := UInt32.ofNat (leAt buf 16 4) }

/-- wire.rs:317-322 `AckPayload`. -/
structure AckPayload where
  ackedTopicHash : UInt32
  ackedSequence : UInt32
  deriving DecidableEq, Repr

/-- wire.rs:327-331 `AckPayload::encode`. -/
def AckPayload.encode (a : AckPayload) : Bytes :=
  le 4 a.ackedTopicHash.toNat ++ le 4 a.ackedSequence.toNat

/-- wire.rs:333-341 `AckPayload::decode`. -/
def AckPayload.decode (buf : Bytes) : Option AckPayload :=
  if buf.length < 8 then none
  else some { ackedTopicHash := UInt32.ofNat (leAt buf 0 4), ackedSequence := UInt32.ofNat (leAt buf 4 4) }

/-- wire.rs:347-363 `encode_heartbeat`. -/
def encodeHeartbeat (sender : UInt16) (seq : UInt32) (p : HeartbeatPayload) : Bytes :=
  (PacketHeader.new (0 ||| F_HEARTBEAT) sender seq).encode ++ p.encode

/-- wire.rs:366-371 `decode_heartbeat`. -/
def decodeHeartbeat (buf : Bytes) : Option HeartbeatPayload :=
  if buf.length < PH + 20 then none else HeartbeatPayload.decode (buf.drop PH)

/-- wire.rs:374-390 `encode_ack`. -/
def encodeAck (sender : UInt16) (seq : UInt32) (p : AckPayload) : Bytes :=
  (PacketHeader.new (0 ||| F_ACK) sender seq).encode ++ p.encode

/-- wire.rs:393-398 `decode_ack`. -/
def decodeAck (buf : Bytes) : Option AckPayload :=
  if buf.length < PH + 8 then none else AckPayload.decode (buf.drop PH)

/-- wire.rs:404-413 `OutMessage` (topic name as its bytes). -/
structure OutMessage where
  topicName : Bytes
  topicHash : UInt32
  payload : Bytes
  timestampNs : UInt64
  sequence : UInt32
  priority : Priority
  reliability : Reliability
  encoding : Encoding
  deriving DecidableEq, Repr

/-- wire.rs:417-425 `InMessage`. -/
structure InMessage where
  topicHash : UInt32
  payload : Bytes
  timestampNs : UInt64
  sequence : UInt32
  priority : Priority
  reliability : Reliability
  encoding : Encoding
  deriving DecidableEq, Repr

/-- wire.rs:456-465 / 485-494: the header written for one message
(`payload.len() as u32` truncates). -/
def OutMessage.header (m : OutMessage) : MessageHeader :=
  { topicHash := m.topicHash, payloadLen := UInt32.ofNat m.payload.length,
    timestampNs := m.timestampNs, sequence := m.sequence, priority := m.priority,
    reliability := m.reliability, encoding := m.encoding, sourceHost := 0 }

/-- wire.rs:442-474 `encode_single`; the empty list stands for the returned 0
("not encoded"). -/
def encodeSingle (bufLen : Nat) (h : PacketHeader) (m : OutMessage) : Bytes :=
  if bufLen < PH + MH + m.payload.length then []
  else h.encode ++ (m.header.encode ++ m.payload)

/-- wire.rs:484-500: the loop of `encode_batch`; `none` is the slice-index panic when the
buffer is too small. -/
def encodeBatchLoop (bufLen : Nat) : Nat → List OutMessage → Option Bytes
  | _, [] => some []
  | offset, m :: ms =>
    if bufLen < offset + MH then none
    else if bufLen < offset + MH + m.payload.length then none
    else
      match encodeBatchLoop bufLen (offset + MH + m.payload.length) ms with
      | none => none
      | some rest => some (m.header.encode ++ (m.payload ++ rest))

/-- wire.rs:478-503 `encode_batch`; `none` is the panic on a too small buffer. -/
def encodeBatch (bufLen : Nat) (h : PacketHeader) (ms : List OutMessage) : Option Bytes :=
  if bufLen < PH then none
  else (encodeBatchLoop bufLen PH ms).map (h.encode ++ ·)

/-- wire.rs:517-538: the message loop of `decode_packet`. The `?` on
`MessageHeader::decode` aborts the whole packet (`none`). -/
def decodeLoop (buf : Bytes) (offset : Nat) : Option (List InMessage) :=
  if _h : offset + MH ≤ buf.length then
    match MessageHeader.decode (buf.drop offset) with
    | none => none
    | some mh =>
      let off := offset + MH
      let plen := mh.payloadLen.toNat
      if off + plen > buf.length then some []
      else
        match decodeLoop buf (off + plen) with
        | none => none
        | some rest =>
          some ({ topicHash := mh.topicHash, payload := slice buf off plen,
                  timestampNs := mh.timestampNs, sequence := mh.sequence,
                  priority := mh.priority, reliability := mh.reliability,
                  encoding := mh.encoding } :: rest)
  else some []
termination_by buf.length - offset
decreasing_by simp only [MH] at *; omega

/-- wire.rs:507-542 `decode_packet`. -/
def decodePacket (buf : Bytes) : Option (PacketHeader × List InMessage) :=
  match PacketHeader.decode buf with
  | none => none
  | some h =>
    if hasFlag h.flags F_HEARTBEAT || hasFlag h.flags F_ACK then some (h, [])
    else
      match decodeLoop buf PH with
      | none => none
      | some ms => some (h, ms)

end Horus.Wire
