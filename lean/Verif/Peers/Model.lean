import Verif.Common.Bytes
import Verif.Common.Map
/-
Model of horus_net/src/heartbeat.rs (link supervision) and horus_net/src/peer.rs (peer table), and
of the two places of replicator.rs where they are driven together.

Instants are natural numbers of nanoseconds; `Instant::duration_since` saturates at zero, which is
subtraction on `Nat`. A peer id ([u8; 16]) is a `Nat`. Addresses are `Nat`s.
-/
namespace Horus.Peers

/-- wire.rs: a peer id, [u8; 16], as a number. -/
abbrev PeerId := Nat

/-! ### Heartbeat -/

/-- heartbeat.rs:45-64 `PeerHeartbeatState` (the RTT estimate is not modelled: it feeds no
decision). -/
structure HbState where
  addr : Nat
  lastSent : Nat
  lastReceived : Nat
  missedCount : Nat
  firstSeen : Nat
  everReceived : Bool
  linkAlive : Bool
  actionFired : Bool
deriving DecidableEq

/-- heartbeat.rs:67-80 `SafetyHeartbeat`; `interval` in ns. -/
structure Heartbeat where
  interval : Nat
  threshold : Nat
  peers : Map PeerId HbState

/-- heartbeat.rs:91 `DISCOVERY_GRACE` = 2 s. -/
abbrev GRACE : Nat := 2000000000

/-- heartbeat.rs:106-120 `with_config`. -/
def Heartbeat.new (interval threshold : Nat) : Heartbeat := ⟨interval, threshold, []⟩

/-- heartbeat.rs:123-136 `add_peer`: `entry(..).or_insert(..)`. -/
def Heartbeat.addPeer (h : Heartbeat) (p : PeerId) (addr now : Nat) : Heartbeat :=
  match Map.get h.peers p with
  | some _ => h
  | none =>
    let s : HbState :=
      { addr := addr, lastSent := now - h.interval, lastReceived := now, missedCount := 0,
        firstSeen := now, everReceived := false, linkAlive := true, actionFired := false }
    { h with peers := Map.set h.peers p s }

/-- heartbeat.rs:139-141 `remove_peer`. -/
def Heartbeat.removePeer (h : Heartbeat) (p : PeerId) : Heartbeat :=
  { h with peers := Map.del h.peers p }

/-- The new per-peer state in heartbeat.rs:151-177. -/
def HbState.received (s : HbState) (now : Nat) : HbState :=
  let s := { s with lastReceived := now, missedCount := 0, everReceived := true }
  if !s.linkAlive then { s with linkAlive := true, actionFired := false } else s

/-- heartbeat.rs:151-177 `on_received`. -/
def Heartbeat.onReceived (h : Heartbeat) (p : PeerId) (now : Nat) : Heartbeat :=
  match Map.get h.peers p with
  | some s => { h with peers := Map.set h.peers p (s.received now) }
  | none => h

/-- heartbeat.rs:221-223: `(since_last / interval.max(1)).max(1) as u32`. -/
def expectedCount (interval since : Nat) : Nat := max (since / max interval 1) 1 % 2 ^ 32

/-- heartbeat.rs:243-244 `introduced`. -/
def HbState.introduced (s : HbState) (now : Nat) : Bool :=
  s.everReceived || decide (now - s.firstSeen > GRACE)

/-- One iteration of the loop of `tick`, heartbeat.rs:198-260: new state, whether a heartbeat was
sent, whether the peer was pushed to `link_lost`. -/
def HbState.tick (interval threshold : Nat) (s : HbState) (now : Nat) : HbState × Bool × Bool :=
  let sent := decide (now - s.lastSent ≥ interval)
  let s := if sent then { s with lastSent := now } else s
  let e := expectedCount interval (now - s.lastReceived)
  if s.introduced now && decide (e ≥ threshold) && s.linkAlive then
    let s := { s with linkAlive := false, missedCount := e }
    if !s.actionFired then ({ s with actionFired := true }, sent, true) else (s, sent, false)
  else (s, sent, false)

/-- heartbeat.rs:187-264 `tick`: returns the peers whose link just died. -/
def Heartbeat.tick (h : Heartbeat) (now : Nat) : Heartbeat × List PeerId :=
  ({ h with peers := h.peers.map fun (p, s) => (p, (s.tick h.interval h.threshold now).1) },
   (h.peers.filter fun (_, s) => (s.tick h.interval h.threshold now).2.2).map Prod.fst)

/-- heartbeat.rs:267-272 `is_link_alive`. -/
def Heartbeat.isLinkAlive (h : Heartbeat) (p : PeerId) : Bool :=
  match Map.get h.peers p with
  | some s => s.linkAlive
  | none => false

/-! ### Peer table -/

/-- peer.rs:17-32 `PeerInfo` (topics reduced to an opaque list of (name, role, type hash)). -/
structure PeerInfo where
  addr : Nat
  dataPort : Nat
  topics : List (Bytes × Nat × Nat)
  lastSeen : Nat
  alive : Bool
deriving DecidableEq

/-- discovery.rs `PeerAnnouncement`: the fields the peer table uses. -/
structure Announcement where
  peerId : PeerId
  sourceAddr : Nat
  dataPort : Nat
  topics : List (Bytes × Nat × Nat)
deriving DecidableEq

/-- peer.rs:54-62 `PeerTable`. -/
structure PeerTable where
  missThreshold : Nat
  peers : Map PeerId PeerInfo

/-- netfilter.rs:307 `MAX_PEERS`. -/
abbrev MAX_PEERS : Nat := 256

/-- peer.rs:99-104: among the dead peers, one with the smallest `last_seen` (the first such in
iteration order, as `min_by_key` does). -/
def victim : Map PeerId PeerInfo → Option (PeerId × PeerInfo)
  | [] => none
  | (p, i) :: rest =>
    if i.alive then victim rest
    else match victim rest with
      | none => some (p, i)
      | some (q, j) => if i.lastSeen ≤ j.lastSeen then some (p, i) else some (q, j)

/-- The entry written by peer.rs:86-91 and 123-134. -/
def Announcement.info (a : Announcement) (now : Nat) : PeerInfo :=
  { addr := a.sourceAddr, dataPort := a.dataPort, topics := a.topics, lastSeen := now, alive := true }

/-- peer.rs:84-136 `update_peer`. -/
def PeerTable.updatePeer (t : PeerTable) (a : Announcement) (now : Nat) : PeerTable :=
  match Map.get t.peers a.peerId with
  | some _ => { t with peers := Map.set t.peers a.peerId (a.info now) }
  | none =>
    if t.peers.length ≥ MAX_PEERS then
      match victim t.peers with
      | some (v, _) => { t with peers := Map.set (Map.del t.peers v) a.peerId (a.info now) }
      | none => t
    else { t with peers := Map.set t.peers a.peerId (a.info now) }

/-- peer.rs:141-143: `discovery_interval_secs (1.0) * miss_threshold`, in ns. -/
def PeerTable.timeout (t : PeerTable) : Nat := t.missThreshold * 1000000000

/-- peer.rs:148: alive and not heard of for longer than the timeout. -/
def PeerInfo.stale (timeout now : Nat) (i : PeerInfo) : Bool :=
  i.alive && decide (now - i.lastSeen > timeout)

/-- peer.rs:140-155 `check_liveness`. -/
def PeerTable.checkLiveness (t : PeerTable) (now : Nat) : PeerTable × List PeerId :=
  ({ t with peers := t.peers.map fun (p, i) =>
      (p, if i.stale t.timeout now then { i with alive := false } else i) },
   (t.peers.filter fun (_, i) => i.stale t.timeout now).map Prod.fst)

/-- peer.rs:158-162 `remove_dead_peers`. -/
def PeerTable.removeDead (t : PeerTable) : PeerTable :=
  { t with peers := t.peers.filter fun (_, i) => i.alive }

/-- peer.rs:185-195 `subscribers_of` (role 2 = subscriber, 3 = both). -/
def PeerTable.subscribersOf (t : PeerTable) (topic : Bytes) : List (PeerId × PeerInfo) :=
  t.peers.filter fun (_, i) =>
    i.alive && i.topics.any fun (n, role, _) => decide (n = topic) && (role == 2 || role == 3)

/-- peer.rs:165-172 `has_remote_subscribers`. -/
def PeerTable.hasRemoteSubscribers (t : PeerTable) (topic : Bytes) : Bool :=
  t.peers.any fun (_, i) =>
    i.alive && i.topics.any fun (n, role, _) => decide (n = topic) && (role == 2 || role == 3)

/-! ### Both, as the replicator drives them -/

/-- The two tables the replicator keeps about peers (replicator.rs:316-338, 781-799). -/
structure Node where
  table : PeerTable
  hb : Heartbeat

/-- replicator.rs:316-338 after the own-id and secret checks: `update_peer`, then `add_peer`. -/
def Node.onAnnouncement (n : Node) (a : Announcement) (now : Nat) : Node :=
  { table := n.table.updatePeer a now, hb := n.hb.addPeer a.peerId a.sourceAddr now }

/-- replicator.rs:781-799: the discovery part of the timer. -/
def Node.onDiscoveryTimer (n : Node) (now : Nat) : Node :=
  let r := n.table.checkLiveness now
  if r.2 = [] then { n with table := r.1 }
  else { table := r.1.removeDead, hb := r.2.foldl Heartbeat.removePeer n.hb }

end Horus.Peers
