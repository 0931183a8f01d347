import Verif.Common.Bytes
import Verif.Ring.Common
/-
The shared log: horus_core/src/core/log_buffer.rs, and the log replication of
horus_net/src/log_replication.rs.

Strings are their UTF-8 bytes. The ring model has one step per atomic access of a writer; the 504
data bytes of a slot are written and read in two parts, so that mixed data can be seen. Not modelled:
opening and growing the file, the terminal and file output, the process-local mutex (which only
makes some schedules impossible), weak memory orderings (steps are sequentially consistent).
-/
namespace Horus.LogBuf
open Horus Horus.Ring

/-! ### Fields and serialisation -/

/-- `LogType` (log_buffer.rs 24-31), in declaration order: bincode writes its index as `u32`. -/
inductive Level where
  | publish | subscribe | info | warning | error | debug
  deriving DecidableEq, Repr

/-- `LogEntry` (log_buffer.rs 12-21). -/
structure Entry where
  timestamp : Bytes
  tick : Nat
  node : Bytes
  level : Level
  topic : Option Bytes
  message : Bytes
  tickUs : Nat
  ipcNs : Nat
  deriving DecidableEq, Repr

/-- A UTF-8 continuation byte: `(b as i8) < -0x40`. -/
def cont (b : UInt8) : Bool := decide (128 ≤ b.toNat) && decide (b.toNat < 192)

/-- `str::is_char_boundary`. Library function or literal as used by core/log_buffer.rs, log_replication.rs. -/
def isBoundary (s : Bytes) (i : Nat) : Bool :=
  if i = 0 then true
  else match s[i]? with
    | none => decide (i = s.length)
    | some b => !cont b

/-- The loop of `truncate_field` (log_buffer.rs 143-145). -/
def findEnd (s : Bytes) : Nat → Nat
  | 0 => 0
  | e + 1 => if isBoundary s (e + 1) then e + 1 else findEnd s e

/-- `"..."`. Library function or literal as used by core/log_buffer.rs, log_replication.rs. -/
def dots : Bytes := [46, 46, 46]

/-- `truncate_field` (log_buffer.rs 137-148). -/
def truncField (s : Bytes) (max : Nat) : Bytes :=
  if s.length ≤ max then s else s.take (findEnd s (max - 3)) ++ dots

/-- The truncations at the start of `push` (log_buffer.rs 286-292). -/
def truncate (e : Entry) : Entry :=
  { e with node := truncField e.node 64, timestamp := truncField e.timestamp 32, topic := e.topic.map fun t => truncField t 64, message := truncField e.message 280 }

/-- `SLOT_DATA_SIZE` (log_buffer.rs 58). -/
def dataSize : Nat := 504

/-- The index bincode writes for a level.
Library function or literal as used by core/log_buffer.rs, log_replication.rs. -/
def Level.code : Level → Nat
  | .publish => 0 | .subscribe => 1 | .info => 2 | .warning => 3 | .error => 4 | .debug => 5

/-- Its inverse. Source: core/log_buffer.rs, log_replication.rs. -/
def Level.ofCode : Nat → Option Level
  | 0 => some .publish | 1 => some .subscribe | 2 => some .info | 3 => some .warning
  | 4 => some .error | 5 => some .debug | _ => none

/-- bincode's string: 8-byte length, then the bytes.
Library function or literal as used by core/log_buffer.rs, log_replication.rs. -/
def encStr (s : Bytes) : Bytes := le 8 s.length ++ s

/-- bincode's `Option<String>`: a tag byte.
Library function or literal as used by core/log_buffer.rs, log_replication.rs. -/
def encOpt : Option Bytes → Bytes
  | none => [0]
  | some s => 1 :: encStr s

/-- `bincode::serialize(&entry)` (log_buffer.rs 295): fields in order, integers little-endian. -/
def serialize (e : Entry) : Bytes :=
  encStr e.timestamp ++ (le 8 e.tick ++ (encStr e.node ++ (le 4 e.level.code ++ (encOpt e.topic ++
    (encStr e.message ++ (le 8 e.tickUs ++ le 8 e.ipcNs))))))

/-- Read a fixed-width integer; the rest of the input. Source: core/log_buffer.rs, log_replication.rs. -/
def rdNat (k : Nat) (b : Bytes) : Option (Nat × Bytes) :=
  if b.length < k then none else some (leNat (b.take k), b.drop k)

/-- Read a string. `valid` is the UTF-8 check. Source: core/log_buffer.rs, log_replication.rs. -/
def rdStr (valid : Bytes → Bool) (b : Bytes) : Option (Bytes × Bytes) :=
  match rdNat 8 b with
  | none => none
  | some (n, r) => if r.length < n then none else if valid (r.take n) then some (r.take n, r.drop n) else none

/-- Read an optional string. Source: core/log_buffer.rs, log_replication.rs. -/
def rdOpt (valid : Bytes → Bool) : Bytes → Option (Option Bytes × Bytes)
  | [] => none
  | t :: r => if t = 0 then some (none, r) else if t = 1 then
      match rdStr valid r with
      | none => none
      | some (s, r') => some (some s, r')
    else none

/-- `bincode::deserialize::<LogEntry>` (log_buffer.rs 452): trailing bytes are ignored. -/
def deserialize (valid : Bytes → Bool) (b : Bytes) : Option Entry := do
  let (ts, b) ← rdStr valid b
  let (tick, b) ← rdNat 8 b
  let (node, b) ← rdStr valid b
  let (lv, b) ← rdNat 4 b
  let level ← Level.ofCode lv
  let (topic, b) ← rdOpt valid b
  let (msg, b) ← rdStr valid b
  let (us, b) ← rdNat 8 b
  let (ns, _) ← rdNat 8 b
  some ⟨ts, tick, node, level, topic, msg, us, ns⟩

/-- The data bytes `push` stores for an entry, or `none` if it drops it (log_buffer.rs 295-310,
344-352): the truncated entry, zero-filled. -/
def slotData (e : Entry) : Option Bytes :=
  let d := serialize (truncate e)
  if d.length ≤ dataSize then some (d ++ List.replicate (dataSize - d.length) 0) else none

/-! ### The ring -/

/-- A slot: its sequence field and the two parts of its data (`none`: never written).
Source: core/log_buffer.rs, log_replication.rs. -/
structure Slot (α : Type) where
  seq : Nat := 0
  lo : Option α := none
  hi : Option α := none
  deriving DecidableEq, Repr

/-- Where a writer is inside `push` (log_buffer.rs 326-360). -/
inductive Pc (α : Type) where
  | idle
  /-- index claimed, slot not yet marked -/
  | claimed (i : Nat) (e : α)
  /-- slot marked odd -/
  | marked (i : Nat) (e : α)
  /-- first part of the data written -/
  | half (i : Nat) (e : α)
  /-- all data written -/
  | full (i : Nat) (e : α)
  deriving DecidableEq, Repr

/-- The mapped file and its writers. `claims` is a ghost list: the entry of each claimed index.
Ghost or helper of the model of core/log_buffer.rs, log_replication.rs. -/
structure St (α : Type) where
  widx : Nat := 0
  slots : Nat → Slot α := fun _ => {}
  pc : Nat → Pc α := fun _ => .idle
  claims : List α := []

/-- Steps of writers, in any process. Schedules over the functions of core/log_buffer.rs, log_replication.rs. -/
inductive Act (α : Type) where
  | claim (t : Nat) (e : α)
  | go (t : Nat)
  deriving DecidableEq, Repr

/-- One writer step, in a ring of `cap` slots (log_buffer.rs 329-360). -/
def step {α : Type} (cap : Nat) (s : St α) : Act α → St α
  | .claim t e =>
    match s.pc t with
    | .idle => { s with widx := s.widx + 1, pc := upd s.pc t (.claimed s.widx e), claims := s.claims ++ [e] }
    | _ => s
  | .go t =>
    match s.pc t with
    | .idle => s
    | .claimed i e =>
      { s with slots := upd s.slots (i % cap) { s.slots (i % cap) with seq := 2 * i + 1 }, pc := upd s.pc t (.marked i e) }
    | .marked i e =>
      { s with slots := upd s.slots (i % cap) { s.slots (i % cap) with lo := some e }, pc := upd s.pc t (.half i e) }
    | .half i e =>
      { s with slots := upd s.slots (i % cap) { s.slots (i % cap) with hi := some e }, pc := upd s.pc t (.full i e) }
    | .full i e =>
      { s with slots := upd s.slots (i % cap) { s.slots (i % cap) with seq := 2 * i + 2 }, pc := upd s.pc t .idle }

/-- A history. Schedules over the functions of core/log_buffer.rs, log_replication.rs. -/
def run {α : Type} (cap : Nat) (s : St α) (as : List (Act α)) : St α := as.foldl (step cap) s

/-- One complete `push` by writer 0. Ghost or helper of the model of core/log_buffer.rs, log_replication.rs. -/
def pushActs {α : Type} (e : α) : List (Act α) := [.claim 0 e, .go 0, .go 0, .go 0, .go 0]

/-- What a reader takes from a slot (log_buffer.rs 421-455): nothing if it was never written or is
still odd when the spin times out; otherwise its data bytes, here both parts. -/
def view {α : Type} (sl : Slot α) : Option (α × α) :=
  if sl.seq = 0 then none
  else if sl.seq % 2 = 1 then none
  else match sl.lo, sl.hi with
    | some a, some b => some (a, b)
    | _, _ => none

/-- The positions `get_since` visits (log_buffer.rs 399-418): from `skip` to `num_entries`. -/
def visited (cap w after : Nat) : List Nat :=
  let num := min w cap
  let start := if w > cap then w % cap else 0
  let oldest := w - num
  let skip := min (after - oldest) num
  ((List.range num).drop skip).map fun i => (start + i) % cap

/-- The entries `get_since(after)` returns when no writer moves meanwhile.
Source: core/log_buffer.rs, log_replication.rs. -/
def getSince {α : Type} (cap : Nat) (s : St α) (after : Nat) : List (α × α) :=
  (visited cap s.widx after).filterMap fun i => view (s.slots i)

/-- What `get_since` does to the slots (log_buffer.rs 443-448): an odd sequence is made even. -/
def repair {α : Type} (sl : Slot α) : Slot α := if sl.seq % 2 = 1 then { sl with seq := sl.seq + 1 } else sl

/-- The state after `get_since(after)`. Source: core/log_buffer.rs, log_replication.rs. -/
def afterRead {α : Type} (cap : Nat) (s : St α) (after : Nat) : St α :=
  { s with slots := fun i => if i ∈ visited cap s.widx after then repair (s.slots i) else s.slots i }

/-! ### Reading while a writer moves -/

/-- A reader at one slot: it checks the sequence once, then copies the two parts.
Source: core/log_buffer.rs, log_replication.rs. -/
inductive RPc (α : Type) where
  | start
  | checked
  | gotLo (a : α)
  | got (a b : α)
  | skipped
  deriving DecidableEq, Repr

/-- One reader step (log_buffer.rs 418-453): the sequence is not looked at again after the copy. -/
def rstep {α : Type} (sl : Slot α) : RPc α → RPc α
  | .start => if sl.seq = 0 then .skipped else if sl.seq % 2 = 1 then .start else .checked
  | .checked => match sl.lo with
    | some a => .gotLo a
    | none => .skipped
  | .gotLo a => match sl.hi with
    | some b => .got a b
    | none => .skipped
  | r => r

/-! ### Draining -/

/-- A drain loop (log_buffer.rs 609-637; log_replication.rs 91-106): entries are named by their
index. `n` is how many were pushed, `last` the index remembered, `cur` the index read at the start
of the pass, `out` what was written. -/
structure Drain where
  n : Nat
  last : Nat
  cur : Option Nat := none
  out : List Nat := []
  deriving DecidableEq, Repr

/-- Steps: an entry is pushed; the drain reads `write_idx`; the drain fetches and writes.
Schedules over the functions of core/log_buffer.rs, log_replication.rs. -/
inductive DAct where
  | push | look | fetch
  deriving DecidableEq, Repr

/-- The indices `get_since(after)` returns when `w` entries were pushed.
Source: core/log_buffer.rs, log_replication.rs. -/
def fetched (cap w after : Nat) : List Nat := (List.range w).drop (max after (w - cap))

/-- One step of the drain. Source: core/log_buffer.rs, log_replication.rs. -/
def dstep (cap : Nat) (d : Drain) : DAct → Drain
  | .push => { d with n := d.n + 1 }
  | .look => if d.cur = none ∧ d.n ≠ d.last then { d with cur := some d.n } else d
  | .fetch => match d.cur with
    | none => d
    | some c => { d with out := d.out ++ fetched cap d.n d.last, last := c, cur := none }

/-- A drain history. Schedules over the functions of core/log_buffer.rs, log_replication.rs. -/
def drun (cap : Nat) (d : Drain) (as : List DAct) : Drain := as.foldl (dstep cap) d

/-! ### Replication -/

/-- `LogReplicationLevel` (log_replication.rs 14-20). -/
inductive RepLevel where
  | off | errorOnly | warn | info | all
  deriving DecidableEq, Repr

/-- `should_replicate` (log_replication.rs 39-48). -/
def RepLevel.takes : RepLevel → Level → Bool
  | .off, _ => false
  | .errorOnly, l => l = .error
  | .warn, l => l = .error || l = .warning
  | .info, l => l = .error || l = .warning || l = .info
  | .all, _ => true

/-- The level byte of `encode_entry` (log_replication.rs 134-140). -/
def wireLevel : Level → UInt8
  | .error => 4 | .warning => 3 | .info => 2 | .debug => 1 | _ => 0

/-- The level a receiver makes of it (log_replication.rs 210-216). -/
def levelOfWire (b : UInt8) : Level :=
  if b = 4 then .error else if b = 3 then .warning else if b = 2 then .info else if b = 1 then .debug else .info

/-- `encode_entry` (log_replication.rs 131-150): lengths are cut to 16 bits. -/
def encEntry (e : Entry) : Bytes :=
  le 2 e.node.length ++ (e.node ++ (wireLevel e.level :: (le 2 e.message.length ++ e.message)))

/-- The payload of `poll` (log_replication.rs 114-120). -/
def encBatch (host : Bytes) (es : List Entry) : Bytes :=
  le 2 host.length ++ (host ++ (le 2 es.length ++ (es.map encEntry).flatten))

/-- `handle_remote_logs`, one entry (log_replication.rs 179-231): `none` stops the loop. `lossy` is
`from_utf8_lossy`. -/
def decEntry (lossy : Bytes → Bytes) (host : Bytes) (b : Bytes) : Option (Entry × Bytes) :=
  if b.length < 2 then none else
  let nl := leNat (b.take 2)
  let b := b.drop 2
  if b.length < nl then none else
  let name := lossy (b.take nl)
  match b.drop nl with
  | [] => none
  | lv :: b =>
    if b.length < 2 then none else
    let ml := leNat (b.take 2)
    let b := b.drop 2
    if b.length < ml then none else
    some (⟨[], 0, host ++ 47 :: name, levelOfWire lv, none, lossy (b.take ml), 0, 0⟩, b.drop ml)

/-- The loop over `count` entries. Source: core/log_buffer.rs, log_replication.rs. -/
def decEntries (lossy : Bytes → Bytes) (host : Bytes) : Nat → Bytes → List Entry
  | 0, _ => []
  | n + 1, b => match decEntry lossy host b with
    | none => []
    | some (e, b') => e :: decEntries lossy host n b'

/-- `handle_remote_logs` (log_replication.rs 154-232): the entries pushed to the remote buffer. -/
def decBatch (lossy : Bytes → Bytes) (b : Bytes) : List Entry :=
  if b.length < 4 then [] else
  let hl := leNat (b.take 2)
  let b := b.drop 2
  if b.length < hl then [] else
  let host := lossy (b.take hl)
  let b := b.drop hl
  if b.length < 2 then [] else
  decEntries lossy host (leNat (b.take 2)) (b.drop 2)

/-- Whether `frame_system_topic` can send a payload (replicator.rs 944-947): header 12 + 24 bytes and
the payload in one datagram of 65507. -/
def framed (payload : Bytes) : Bool := decide (12 + 24 + payload.length ≤ 65507)

end Horus.LogBuf
