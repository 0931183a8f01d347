import Verif.Ring.Common
/-
Model of the fan-out ring: horus_core/src/communication/topic/shm_fanout.rs and seqlock.rs.
A 16 x 16 matrix of channels, one per (publisher slot, subscriber slot). One transition per access to
shared memory; a message is written and copied one word at a time. Publishers and subscribers may
join, leave and crash at any point, and slots are reused.
Simplifications: sequentially consistent memory (the code uses the fence pairing of a sequence lock
for these accesses); positions are natural numbers, so a stamp is a pair (position, writing bit); a
message is `width` words (for serialised messages: the length word and the payload); a load of a word
that only the loading side ever writes is merged with the next access.
-/
namespace Horus.Fanout
open Horus.Ring

/-- shm_fanout.rs:82 MAX_FANOUT_ENDPOINTS. -/
def endpoints : Nat := 16

/-- seqlock.rs:55 SEQLOCK_MAX_ATTEMPTS. -/
def maxAttempts : Nat := 16

/-- One channel (shm_fanout.rs:205-246). Ghost: `log` the published messages in order; `start` the
position at which the present subscriber joined; `gap` the messages it passed over; `dirty` whether a
write was begun and not published. -/
structure Chan where
  head : Nat
  tail : Nat
  ver : Nat → Nat × Bool
  slot : Nat → Nat → Nat
  log : List (List Nat)
  start : Nat
  gap : Nat
  dirty : Bool

/-- shm_fanout.rs:486-520: everything zero; stamp 0 is "position 0, done". -/
def Chan.init : Chan := ⟨0, 0, fun _ => (0, false), fun _ _ => 0, [], 0, 0, false⟩

/-- Where a publisher is inside `send` (shm_fanout.rs:846-866, seqlock.rs:68-96). `rest` are the
subscriber slots of the loaded mask still to be served. -/
inductive PPc
  | idle
  | fan (m : List Nat) (rest : List Nat)
  | mark (m : List Nat) (s : Nat) (rest : List Nat)
  | write (m : List Nat) (s : Nat) (rest : List Nat) (k : Nat)
  | stamp (m : List Nat) (s : Nat) (rest : List Nat)
  | bump (m : List Nat) (s : Nat) (rest : List Nat)
deriving DecidableEq

/-- Where a subscriber is inside registration (`reset`, the publisher slots whose channel is still to
be reset) or `recv` (shm_fanout.rs:876-906, seqlock.rs:110-158). `rest` are the publisher slots still to
be tried, `next` the local position, `att` the attempts used. -/
inductive CPc
  | reset (rest : List Nat)
  | idle
  | scan (rest : List Nat)
  | head (p : Nat) (rest : List Nat) (next att : Nat)
  | load1 (p : Nat) (rest : List Nat) (next att : Nat)
  | read (p : Nat) (rest : List Nat) (next att : Nat) (acc : List Nat)
  | recheck (p : Nat) (rest : List Nat) (next att : Nat) (acc : List Nat)
deriving DecidableEq

/-- A publisher slot. Ghost: `started` the calls of `send` with the subscribers they were for;
`crashes` how often an owner of this slot died inside a call.
Ghost or helper of the model of topic/shm_fanout.rs:140-246, 846-906. -/
structure Pub where
  pc : PPc
  started : List (List Nat × List Nat)
  crashes : Nat

/-- A subscriber slot. `missed p` is the part of the missed counter due to publisher slot `p` (the
code keeps the sum). Ghost: `received` what `recv` returned, as (publisher slot, position, value);
per publisher slot, at the reset: `since` the number of calls started, `inflight` the message a call
already under way has still to deliver here, `crashesAt` the crashes so far.
Ghost or helper of the model of topic/shm_fanout.rs:140-246, 846-906. -/
structure Sub where
  joined : Bool
  pc : CPc
  cursor : Nat
  missed : Nat → Nat
  received : List (Nat × Nat × List Nat)
  since : Nat → Nat
  inflight : Nat → List (List Nat)
  crashesAt : Nat → Nat

/-- A subscriber slot nobody uses. Source: topic/shm_fanout.rs:140-246, 846-906. -/
def Sub.init : Sub := ⟨false, .idle, 0, fun _ => 0, [], fun _ => 0, fun _ => [], fun _ => 0⟩

/-- The shared region and all endpoints: the channel matrix and the two activity masks (shm_fanout.rs:140-175, 205-246). -/
structure St where
  chan : Nat → Nat → Chan
  pubActive : Nat → Bool
  subActive : Nat → Bool
  pubs : Nat → Pub
  subs : Nat → Sub

/-- shm_fanout.rs:486-520: a new region, with no endpoints. -/
def St.init : St :=
  ⟨fun _ _ => Chan.init, fun _ => false, fun _ => false, fun _ => ⟨.idle, [], 0⟩, fun _ => Sub.init⟩

/-- Replace one channel. Ghost or helper of the model of topic/shm_fanout.rs:140-246, 846-906. -/
def setChan (s : St) (p i : Nat) (c : Chan) : St := { s with chan := upd s.chan p (upd (s.chan p) i c) }
/-- Replace one publisher. Ghost or helper of the model of topic/shm_fanout.rs:140-246, 846-906. -/
def setPub (s : St) (p : Nat) (x : Pub) : St := { s with pubs := upd s.pubs p x }
/-- Replace one subscriber. Ghost or helper of the model of topic/shm_fanout.rs:140-246, 846-906. -/
def setSub (s : St) (i : Nat) (x : Sub) : St := { s with subs := upd s.subs i x }

/-- The message a publisher at `pc` has still to put into the channel of subscriber slot `i`.
Ghost or helper of the model of topic/shm_fanout.rs:140-246, 846-906. -/
def PPc.pend (pc : PPc) (i : Nat) : List (List Nat) :=
  match pc with
  | .idle => []
  | .fan m rest => if i ∈ rest then [m] else []
  | .mark m s rest => if i = s ∨ i ∈ rest then [m] else []
  | .write m s rest _ => if i = s ∨ i ∈ rest then [m] else []
  | .stamp m s rest => if i = s ∨ i ∈ rest then [m] else []
  | .bump m s rest => if i = s ∨ i ∈ rest then [m] else []

/-- shm_fanout.rs:846-866 `send_pod` (and 912-937 `send_serde` for a message that fits), with
seqlock.rs:68-96 `seqlock_publish`. -/
def pubStep (c : Cfg) (s : St) (p : Nat) (m : List Nat) : St :=
  let x := s.pubs p
  match x.pc with
  | .idle =>
    if m.length ≠ c.width then s
    else
      let targets := (List.range endpoints).filter s.subActive
      setPub s p { x with pc := .fan m targets, started := x.started ++ [(m, targets)] }
  | .fan _ [] => setPub s p { x with pc := .idle }
  | .fan m (i :: rest) => setPub s p { x with pc := .mark m i rest }
  | .mark m i rest =>
    let ch := s.chan p i
    setPub (setChan s p i { ch with ver := upd ch.ver (c.idx ch.head) (ch.head, true), dirty := true }) p { x with pc := .write m i rest 0 }
  | .write m i rest k =>
    let ch := s.chan p i
    if k < c.width then
      setPub (setChan s p i { ch with slot := upd ch.slot (c.idx ch.head) (upd (ch.slot (c.idx ch.head)) k (m.getD k 0)) }) p
        { x with pc := .write m i rest (k + 1) }
    else setPub s p { x with pc := .stamp m i rest }
  | .stamp m i rest =>
    let ch := s.chan p i
    setPub (setChan s p i { ch with ver := upd ch.ver (c.idx ch.head) (ch.head, false) }) p { x with pc := .bump m i rest }
  | .bump m i rest =>
    let ch := s.chan p i
    setPub (setChan s p i { ch with head := ch.head + 1, log := ch.log ++ [m], dirty := false }) p { x with pc := .fan m rest }

/-- shm_fanout.rs:883-890: the active publisher slots in round-robin order from the cursor. -/
def scanOrder (active : Nat → Bool) (cursor : Nat) : List Nat :=
  ((List.range endpoints).map fun o => (cursor % endpoints + o) % endpoints).filter active

/-- seqlock.rs:114 `for _ in 0..16`: next attempt on the same channel, or the next publisher. -/
def retry (p : Nat) (rest : List Nat) (next att : Nat) : CPc :=
  if att + 1 < maxAttempts then .head p rest next (att + 1) else .scan rest

/-- shm_fanout.rs:876-906 `recv_pod` with seqlock.rs:110-158 `seqlock_consume`, and the channel reset of
registration (811-823). -/
def subStep (c : Cfg) (s : St) (i : Nat) : St :=
  let x := s.subs i
  if x.joined = false then s
  else match x.pc with
  | .reset [] => setSub s i { x with pc := .idle }
  | .reset (p :: rest) =>
    let ch := s.chan p i
    setSub (setChan s p i { ch with tail := ch.head, start := ch.head, gap := 0 }) i
      { x with
        pc := .reset rest
        since := upd x.since p (s.pubs p).started.length
        inflight := upd x.inflight p ((s.pubs p).pc.pend i)
        crashesAt := upd x.crashesAt p (s.pubs p).crashes }
  | .idle => setSub s i { x with pc := .scan (scanOrder s.pubActive x.cursor) }
  | .scan [] => setSub s i { x with pc := .idle }
  | .scan (p :: rest) => setSub s i { x with pc := .head p rest (s.chan p i).tail 0 }
  | .head p rest next att =>
    let h := (s.chan p i).head
    if h - next = 0 then setSub s i { x with pc := .scan rest }
    else if h - next > c.cap then
      setSub s i { x with pc := .load1 p rest (h - c.cap) att, missed := upd x.missed p (x.missed p + (h - c.cap - next)) }
    else setSub s i { x with pc := .load1 p rest next att }
  | .load1 p rest next att =>
    if (s.chan p i).ver (c.idx next) ≠ (next, false) then setSub s i { x with pc := retry p rest next att }
    else setSub s i { x with pc := .read p rest next att [] }
  | .read p rest next att acc =>
    if acc.length < c.width then
      setSub s i { x with pc := .read p rest next att (acc ++ [(s.chan p i).slot (c.idx next) acc.length]) }
    else setSub s i { x with pc := .recheck p rest next att acc }
  | .recheck p rest next att acc =>
    let ch := s.chan p i
    if ch.ver (c.idx next) ≠ (next, false) then setSub s i { x with pc := retry p rest next att }
    else
      setSub (setChan s p i { ch with tail := next + 1, gap := ch.gap + (next - ch.tail) }) i
        { x with pc := .idle, cursor := p + 1, received := x.received ++ [(p, next, acc)] }

/-- `pub p m`, `sub i`: next access of the owner of that slot (with `m` the next message to send).
Joining sets the active bit (shm_fanout.rs:720-768); leaving, between calls, clears it (672-684);
a crash, at any point, leaves everything in shared memory as it is and frees the slot for a later
join. -/
inductive Act
  | pub (p : Nat) (m : List Nat)
  | sub (i : Nat)
  | pubJoin (p : Nat)
  | pubLeave (p : Nat)
  | pubCrash (p : Nat)
  | subJoin (i : Nat)
  | subLeave (i : Nat)
  | subCrash (i : Nat)
deriving DecidableEq

/-- One action. Joining and leaving set and clear the mask bit (shm_fanout.rs:620-692); a crash leaves the shared words as they are. -/
def step (c : Cfg) (s : St) : Act → St
  | .pub p m => if p < endpoints then pubStep c s p m else s
  | .sub i => if i < endpoints then subStep c s i else s
  | .pubJoin p => if (s.pubs p).pc = .idle then { s with pubActive := upd s.pubActive p true } else s
  | .pubLeave p => if (s.pubs p).pc = .idle then { s with pubActive := upd s.pubActive p false } else s
  | .pubCrash p => if (s.pubs p).pc = .idle then s else setPub s p { s.pubs p with pc := .idle, crashes := (s.pubs p).crashes + 1 }
  | .subJoin i =>
    if (s.subs i).joined then s
    else setSub { s with subActive := upd s.subActive i true } i
      { Sub.init with joined := true, pc := .reset (List.range endpoints) }
  | .subLeave i =>
    if (s.subs i).joined ∧ (s.subs i).pc = .idle then
      setSub { s with subActive := upd s.subActive i false } i { s.subs i with joined := false }
    else s
  | .subCrash i => setSub s i { s.subs i with joined := false }

/-- A schedule. Schedules over the functions of topic/shm_fanout.rs:140-246, 846-906. -/
def run (c : Cfg) (s : St) (as : List Act) : St := as.foldl (step c) s

end Horus.Fanout
