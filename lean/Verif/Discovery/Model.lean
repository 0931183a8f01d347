import Verif.Wire.Model
/-
Model of horus_net/src/discovery.rs (announcement codec, topic matching) and of the topic
registry entry types of horus_net/src/registry.rs.

Topic names are byte strings. `std::str::from_utf8` is the parameter `utf8 : Bytes → Bool`
("is valid UTF-8"), left abstract; Rust `String`s satisfy it by construction.
-/
namespace Horus.Discovery
open Horus.Wire

/-- registry.rs:24-29 `TopicRole`. -/
inductive Role | publisher | subscriber | both
  deriving DecidableEq, Repr

/-- registry.rs:33-41 `TopicRole::merge`. -/
def Role.merge : Role → Role → Role
  | .both, _ => .both
  | _, .both => .both
  | .publisher, .subscriber => .both
  | .subscriber, .publisher => .both
  | .publisher, .publisher => .publisher
  | .subscriber, .subscriber => .subscriber

/-- registry.rs:44-61 `TopicRole::remove`. -/
def Role.remove : Role → Role → Option Role
  | .both, .publisher => some .subscriber
  | .both, .subscriber => some .publisher
  | .both, .both => none
  | .publisher, .publisher => none
  | .subscriber, .subscriber => none
  | _, .both => none
  | existing, _ => some existing

/-- registry.rs:64-70 `TopicRole::to_wire`. -/
def Role.toWire : Role → UInt8
  | .publisher => 1 | .subscriber => 2 | .both => 3

/-- registry.rs:84-98 `TopicEntry` (`is_system` omitted: it plays no role here). -/
structure TopicEntry where
  name : Bytes
  typeHash : UInt32
  typeSize : UInt32
  role : Role
  isPod : Bool
  deriving DecidableEq, Repr

/-- `u8::to_ascii_lowercase` (std). Library function or literal as used by discovery.rs. -/
def lowerByte (b : UInt8) : UInt8 := if 65 ≤ b ∧ b ≤ 90 then b + 32 else b

/-- `str::contains` (std): some suffix starts with the needle. Library function or literal as used by discovery.rs. -/
def containsSub (needle : Bytes) : Bytes → Bool
  | [] => needle.isPrefixOf []
  | b :: bs => needle.isPrefixOf (b :: bs) || containsSub needle bs

/-- priority.rs:32-39 `Priority::infer_from_topic`: "estop", "emergency", "safety". -/
def inferFromTopic (name : Bytes) : Priority :=
  let lower := name.map lowerByte
  if containsSub [101, 115, 116, 111, 112] lower
      || containsSub [101, 109, 101, 114, 103, 101, 110, 99, 121] lower
      || containsSub [115, 97, 102, 101, 116, 121] lower
  then .immediate else .normal

/-- discovery.rs:59-66 `WireTopicEntry`. -/
structure WireTopicEntry where
  name : Bytes
  typeHash : UInt32
  typeSize : UInt32
  role : UInt8
  isPod : UInt8
  priority : UInt8
  deriving DecidableEq, Repr

/-- discovery.rs:13 `MAX_TOPIC_NAME`. -/
abbrev MAX_TOPIC_NAME : Nat := 63
/-- discovery.rs:16 `MAX_TOPICS_PER_ANNOUNCEMENT`. -/
abbrev MAX_TOPICS : Nat := 200
/-- discovery.rs:70 `WireTopicEntry::SIZE`. -/
abbrev WT : Nat := 76
/-- discovery.rs:157 `AnnouncementHeader::SIZE`. -/
abbrev AH : Nat := 30

/-- discovery.rs:72-81 `WireTopicEntry::from_registry_entry`. -/
def WireTopicEntry.ofEntry (e : TopicEntry) : WireTopicEntry :=
  { name := e.name, typeHash := e.typeHash, typeSize := e.typeSize, role := e.role.toWire,
    isPod := if e.isPod then 1 else 0, priority := (inferFromTopic e.name).toU8 }

/-- discovery.rs:83-99 `WireTopicEntry::encode`: length byte, name truncated to 63 bytes and
zero-padded to 63, then the fixed fields. -/
def WireTopicEntry.encode (w : WireTopicEntry) : Bytes :=
  let n := min w.name.length MAX_TOPIC_NAME
  [UInt8.ofNat n] ++ (w.name.take n ++ (List.replicate (63 - n) 0 ++
  (le 4 w.typeHash.toNat ++ (le 4 w.typeSize.toNat ++
  ([w.role] ++ ([w.isPod] ++ ([w.priority] ++ [0])))))))

/-- discovery.rs:101-125 `WireTopicEntry::decode`. -/
def WireTopicEntry.decode (utf8 : Bytes → Bool) (buf : Bytes) : Option WireTopicEntry :=
  if buf.length < WT then none
  else
    let nameLen := leAt buf 0 1
    if nameLen > MAX_TOPIC_NAME then none
    else
      let name := slice buf 1 nameLen
      if !utf8 name then none
      else some
        { name := name
          typeHash := UInt32.ofNat (leAt buf 64 4)
          typeSize := UInt32.ofNat (leAt buf 68 4)
          role := UInt8.ofNat (leAt buf 72 1)
          isPod := UInt8.ofNat (leAt buf 73 1)
          priority := UInt8.ofNat (leAt buf 74 1) }

/-- discovery.rs:141 `ANNOUNCEMENT_FLAG`. -/
def ANNOUNCEMENT_FLAG : UInt8 := 0x80
/-- discovery.rs:144 `ANNOUNCEMENT_HAS_SECRET`. -/
def ANNOUNCEMENT_HAS_SECRET : UInt8 := 0x01

/-- discovery.rs:147-155 `AnnouncementHeader`. -/
structure AnnouncementHeader where
  magic : UInt32
  version : UInt8
  flags : UInt8
  peerId : Bytes
  dataPort : UInt16
  secretHash : Bytes
  topicCount : UInt16
  deriving DecidableEq, Repr

/-- discovery.rs:159-168 `AnnouncementHeader::encode`. -/
def AnnouncementHeader.encode (h : AnnouncementHeader) : Bytes :=
  le 4 h.magic.toNat ++ ([h.version] ++ ([h.flags] ++ (h.peerId ++ (le 2 h.dataPort.toNat ++
  (h.secretHash ++ le 2 h.topicCount.toNat)))))

/-- discovery.rs:170-206 `AnnouncementHeader::decode`. -/
def AnnouncementHeader.decode (buf : Bytes) : Option AnnouncementHeader :=
  if buf.length < AH then none
  else
    let magic := UInt32.ofNat (leAt buf 0 4)
    if magic ≠ MAGIC then none
    else
      let version := UInt8.ofNat (leAt buf 4 1)
      if version ≠ VERSION then none
      else
        let flags := UInt8.ofNat (leAt buf 5 1)
        if flags &&& ANNOUNCEMENT_FLAG = 0 then none
        else some
          { magic := magic
            version := version
            flags := flags
            peerId := slice buf 6 16
            dataPort := UInt16.ofNat (leAt buf 22 2)
            secretHash := slice buf 24 4
            topicCount := UInt16.ofNat (leAt buf 28 2) }

/-- discovery.rs:212-248 `encode_announcement` (the caller's buffer is 65536 bytes, always
large enough: 30 + 200·76). -/
def encodeAnnouncement (peerId : Bytes) (dataPort : UInt16) (secretHash : Bytes)
    (topics : List TopicEntry) : Bytes :=
  let topicCount := min topics.length MAX_TOPICS
  let hasSecret := secretHash ≠ [0, 0, 0, 0]
  let header : AnnouncementHeader :=
    { magic := MAGIC, version := VERSION,
      flags := ANNOUNCEMENT_FLAG ||| (if hasSecret then ANNOUNCEMENT_HAS_SECRET else 0),
      peerId := peerId, dataPort := dataPort, secretHash := secretHash,
      topicCount := UInt16.ofNat topicCount }
  header.encode ++ ((topics.take topicCount).map fun e => (WireTopicEntry.ofEntry e).encode).flatten

/-- discovery.rs:252-259 `PeerAnnouncement` (source address omitted: it is not on the wire). -/
structure PeerAnnouncement where
  peerId : Bytes
  dataPort : UInt16
  secretHash : Bytes
  hasSecret : Bool
  topics : List WireTopicEntry
  deriving DecidableEq, Repr

/-- discovery.rs:273-281: the topic loop; `n` is the remaining iteration count. -/
def decodeTopics (utf8 : Bytes → Bool) (buf : Bytes) : Nat → Nat → List WireTopicEntry
  | 0, _ => []
  | n + 1, offset =>
    if offset + WT > buf.length then []
    else
      match WireTopicEntry.decode utf8 (buf.drop offset) with
      | some e => e :: decodeTopics utf8 buf n (offset + WT)
      | none => decodeTopics utf8 buf n (offset + WT)

/-- discovery.rs:262-291 `decode_announcement`. -/
def decodeAnnouncement (utf8 : Bytes → Bool) (buf : Bytes) : Option PeerAnnouncement :=
  match AnnouncementHeader.decode buf with
  | none => none
  | some h => some
    { peerId := h.peerId, dataPort := h.dataPort, secretHash := h.secretHash,
      hasSecret := h.flags &&& ANNOUNCEMENT_HAS_SECRET != 0,
      topics := decodeTopics utf8 buf h.topicCount.toNat AH }

/-- discovery.rs:297-308 `ReplicationMatch`. -/
structure ReplicationMatch where
  topic : Bytes
  «export» : Bool
  «import» : Bool
  typeHash : UInt32
  isPod : Bool
  deriving DecidableEq, Repr

/-- discovery.rs:322-351: the body for one (local, remote) pair. -/
def matchOne (l : TopicEntry) (r : WireTopicEntry) : Option ReplicationMatch :=
  if l.name ≠ r.name then none
  else if l.typeHash ≠ r.typeHash then none
  else
    let localPub := l.role = .publisher ∨ l.role = .both
    let localSub := l.role = .subscriber ∨ l.role = .both
    let remotePub := r.role = 1 ∨ r.role = 3
    let remoteSub := r.role = 2 ∨ r.role = 3
    let exp := decide (localPub ∧ remoteSub)
    let imp := decide (localSub ∧ remotePub)
    if exp || imp then
      some { topic := l.name, «export» := exp, «import» := imp, typeHash := l.typeHash, isPod := l.isPod }
    else none

/-- discovery.rs:313-356 `find_matches` (the warnings are only printed). -/
def findMatches (locals : List TopicEntry) (remotes : List WireTopicEntry) : List ReplicationMatch :=
  locals.flatMap fun l => remotes.filterMap (matchOne l)

/-- What kind of datagram `Replicator::process_packet` takes a byte string for
(replicator.rs:316-409, after the peer filter): announcement first, then by packet flags. -/
inductive Kind
  | announcement (a : PeerAnnouncement)
  | heartbeat (p : Option HeartbeatPayload)
  | ack (p : Option AckPayload)
  | fragment
  | data (ms : List InMessage)
  | rejected
  deriving DecidableEq, Repr

/-- replicator.rs:316-409: dispatch of `process_packet`. -/
def classify (utf8 : Bytes → Bool) (buf : Bytes) : Kind :=
  match decodeAnnouncement utf8 buf with
  | some a => .announcement a
  | none =>
    match PacketHeader.decode buf with
    | none => .rejected
    | some h =>
      if hasFlag h.flags F_HEARTBEAT then .heartbeat (decodeHeartbeat buf)
      else if hasFlag h.flags F_ACK then .ack (decodeAck buf)
      else if hasFlag h.flags F_FRAGMENT then .fragment
      else
        match decodePacket buf with
        | none => .rejected
        | some (_, ms) => .data ms

end Horus.Discovery
