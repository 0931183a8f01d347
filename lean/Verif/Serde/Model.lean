import Verif.Common.Bytes
import Verif.Ring.Common
import Verif.Topic.Model
/-
Topics of types that are serialized (everything that is not plain old data) on the in-order ring:
send_shm_mp_serde and recv_shm_mpsc_serde (the functions SpscShm and MpscShm topics dispatch to), the
slot format, messages spilled into the topic's tensor pool, and the growth of the slot size.
Source: /repo/horus_core/src/communication/topic/dispatch.rs, mod.rs.
Simplifications: a send is two transitions (up to the claim of a ring position; claim and write), a
receive is one; the interleavings inside them are in Verif.Ring. u64 positions do not wrap. The pool is
a table of slots with a free stack (Verif.Pool has its concurrent implementation), a spilled message is
found by slot number and generation; its byte offset is carried but the bytes are kept per slot. The
region is as long as the slots need (`grow` extends it). Handles have registered; `sync` is the
re-synchronisation after a change of epoch.
-/
namespace Horus.Serde
open Horus.Ring

/-! ### Memory -/

/-- The mapped data region. Source: topic/dispatch.rs, topic/mod.rs. -/
abbrev Mem := Nat → UInt8

/-- Store the bytes at `off`. Source: topic/dispatch.rs, topic/mod.rs. -/
def wr (m : Mem) (off : Nat) (bs : Bytes) : Mem := fun a => if off ≤ a then (bs[a - off]?).getD (m a) else m a

/-- Load `n` bytes at `off`. Source: topic/dispatch.rs, topic/mod.rs. -/
def rd (m : Mem) (off n : Nat) : Bytes := (List.range n).map (fun k => m (off + k))

/-! ### The slot -/

/-- dispatch.rs:101 SPILL_THRESHOLD. -/
def spillThreshold : Nat := 4096

/-- dispatch.rs:110 SPILL_SENTINEL. -/
def sentinel : Nat := 0xDEAD5911CAFEBABE

/-- The fields of dispatch.rs:129-145 `SpillDescriptor` after the sentinel; `gen` is the 64-bit
generation, stored as two words. -/
structure Desc where
  pool : Nat
  slot : Nat
  gen : Nat
  offset : Nat
  size : Nat
deriving DecidableEq, Repr

/-- dispatch.rs:129-145, the 40 bytes. -/
def Desc.enc (d : Desc) : Bytes :=
  le 8 sentinel ++ le 4 d.pool ++ le 4 d.slot ++ le 4 (d.gen % 2 ^ 32) ++ le 4 (d.gen / 2 ^ 32) ++ le 8 d.offset ++ le 8 d.size

/-- dispatch.rs:208-211 `read_spill_descriptor`, from the 40 bytes behind the ready flag. -/
def Desc.dec (b : Bytes) : Desc :=
  ⟨leAt b 8 4, leAt b 12 4, leAt b 16 4 + 2 ^ 32 * leAt b 20 4, leAt b 24 8, leAt b 32 8⟩

/-- dispatch.rs:1111-1119: length and bytes behind the ready flag. -/
def inlineBody (bs : Bytes) : Bytes := le 8 bs.length ++ bs

/-- dispatch.rs:1098-1123: the body, then the ready flag. -/
def writeSlot (m : Mem) (off seq : Nat) (body : Bytes) : Mem := wr (wr m (off + 8) body) off (le 8 (seq + 1))

/-- The ready flag of the slot at `off`. Source: topic/dispatch.rs, topic/mod.rs. -/
def readyAt (m : Mem) (off : Nat) : Nat := leNat (rd m off 8)

/-- What dispatch.rs:391-414 `read_serde_slot` finds in a slot. -/
inductive Found
  | bytes (b : Bytes)
  | spill (d : Desc)
  | bad
deriving DecidableEq, Repr

/-- dispatch.rs:397-409 and 197-200 `is_spill_slot`. -/
def findIn (m : Mem) (off ss : Nat) : Found :=
  let len := leNat (rd m (off + 8) 8)
  if len = sentinel then .spill (Desc.dec (rd m (off + 8) 40))
  else if len > ss - 16 then .bad
  else .bytes (rd m (off + 16) len)

/-! ### The pool -/

/-- A slot of the topic's spill pool. Source: topic/dispatch.rs, topic/mod.rs. -/
structure PSlot where
  gen : Nat
  rc : Nat
  bytes : Bytes
deriving DecidableEq, Repr

/-- Who a pool slot serves (ghost). Ghost or helper of the model of topic/dispatch.rs, topic/mod.rs. -/
inductive Own
  | free
  | msg (k : Nat)
  | pend (i : Nat)
  | orphan
deriving DecidableEq, Repr

/-! ### The topic -/

/-- local_state.rs: the cached slot size, `local_head` and `local_tail` of a handle; `pend` is what a
send holds between the spill and the claim: the serialized message and its descriptor if it was
spilled. -/
structure Hnd where
  ss : Nat
  lh : Nat
  lt : Nat
  pend : Option (Bytes × Option Desc)
deriving DecidableEq, Repr

/-- Header words, memory, pool and handles. Ghost: `pub` the serialized messages published, in order;
`loc k` where message `k` was put; `own` the purpose of each pool slot.
Ghost or helper of the model of topic/dispatch.rs, topic/mod.rs. -/
structure St where
  hd : Nat
  tl : Nat
  ss : Nat
  mem : Mem
  pool : Nat → PSlot
  free : List Nat
  h : Nat → Hnd
  pub : List Bytes
  loc : Nat → Option Desc
  own : Nat → Own

/-- A new topic with slot size `ss`, a pool of `n` slots and all handles synchronised.
Source: topic/dispatch.rs, topic/mod.rs. -/
def St.init (ss n : Nat) : St where
  hd := 0
  tl := 0
  ss := ss
  mem := fun _ => 0
  pool := fun _ => ⟨0, 0, []⟩
  free := List.range n
  h := fun _ => ⟨ss, 0, 0, none⟩
  pub := []
  loc := fun _ => none
  own := fun p => if p < n then .free else .orphan

/-- `head.wrapping_sub(tail) >= capacity` (positions below 2^64). -/
def isFull (c : Cfg) (h t : Nat) : Bool := decide (h < t) || decide (h - t ≥ c.cap)

/-- The state with handle `i` replaced. Ghost or helper of the model of topic/dispatch.rs, topic/mod.rs. -/
def St.setH (s : St) (i : Nat) (x : Hnd) : St := { s with h := upd s.h i x }

/-- dispatch.rs:221-249 `spill_to_pool` with tensor_pool.rs:705-872 `alloc`: the slot on top of the free
stack, its next generation (u64), one reference, the bytes. `ok = false`: the pool has no room left. -/
def spill (s : St) (i : Nat) (bs : Bytes) (ok : Bool) : Option (Desc × St) :=
  match ok, s.free with
  | true, p :: rest =>
    let g := ((s.pool p).gen + 1) % 2 ^ 64
    some (⟨1, p, g, p, bs.length⟩, { s with free := rest, pool := upd s.pool p ⟨g, 1, bs⟩, own := upd s.own p (.pend i) })
  | _, _ => none

/-- mod.rs:1762-1831 `auto_grow_slot_size`: the header's and the caller's slot size change. The
migration it asks for (`migrate_to_optimal`, migration.rs:69-74 and 207-210) does nothing when the
backend already fits the participants, so no other handle is told. -/
def grow (s : St) (i needed : Nat) : St :=
  let x := s.h i
  let ss := max (Horus.Topic.nextPow2 (needed + 16 + needed / 4)) (x.ss * 2)
  { (s.setH i { x with ss := ss, lh := s.hd, lt := max x.lt s.tl }) with ss := ss }

/-- dispatch.rs:1019-1068: everything up to the claim of a ring position, for the serialized message
`bs`. Err leaves nothing pending. -/
def prep (c : Cfg) (s : St) (i : Nat) (bs : Bytes) (ok : Bool) : St :=
  let x := s.h i
  if x.pend ≠ none then s
  else
    let lt := if isFull c s.hd x.lt then s.tl else x.lt
    let s := s.setH i { x with lt := lt }
    if isFull c s.hd lt then s
    else if bs.length > spillThreshold then
      if x.ss < 48 then s
      else match spill s i bs ok with
        | some (d, s') => s'.setH i { x with lt := lt, pend := some (bs, some d) }
        | none => if bs.length > x.ss - 16 then grow s i bs.length else s.setH i { x with lt := lt, pend := some (bs, none) }
    else if bs.length > x.ss - 16 then grow s i bs.length
    else s.setH i { x with lt := lt, pend := some (bs, none) }

/-- The body written for a message (dispatch.rs:1098-1119). -/
def bodyOf (bs : Bytes) : Option Desc → Bytes
  | some d => d.enc
  | none => inlineBody bs

/-- Ghost: the purpose of the slot of a descriptor changes.
Ghost or helper of the model of topic/dispatch.rs, topic/mod.rs. -/
def ownTo (own : Nat → Own) (od : Option Desc) (w : Own) : Nat → Own :=
  match od with
  | some d => upd own d.slot w
  | none => own

/-- dispatch.rs:1077-1130: claim a position and write the slot, or give up because the ring has become
full. -/
def claim (c : Cfg) (s : St) (i : Nat) : St :=
  let x := s.h i
  match x.pend with
  | none => s
  | some (bs, od) =>
    let lt := if isFull c s.hd x.lt then s.tl else x.lt
    if isFull c s.hd lt then
      { (s.setH i { x with lt := lt, pend := none }) with own := ownTo s.own od .orphan }
    else
      { (s.setH i { x with lt := lt, lh := s.hd + 1, pend := none }) with
        hd := s.hd + 1
        mem := writeSlot s.mem (c.idx s.hd * x.ss) s.hd (bodyOf bs od)
        pub := s.pub ++ [bs]
        loc := upd s.loc s.hd od
        own := ownTo s.own od (.msg s.hd) }

/-- tensor_pool.rs:1092-1125 `release` and 1716-1791 `return_slot` (which zeroes the bytes). -/
def release (s : St) (d : Desc) : St :=
  let p := s.pool d.slot
  if p.gen ≠ d.gen ∨ p.rc = 0 then s
  else if p.rc = 1 then
    { s with pool := upd s.pool d.slot ⟨p.gen, 0, List.replicate p.bytes.length 0⟩, free := d.slot :: s.free, own := upd s.own d.slot .free }
  else { s with pool := upd s.pool d.slot { p with rc := p.rc - 1 } }

/-- dispatch.rs:447-457 `deserialize_spill_slot` up to the deserialization: the bytes, if the descriptor
is of this generation. -/
def fetch (s : St) (d : Desc) : Option Bytes :=
  let p := s.pool d.slot
  if p.gen ≠ d.gen then none else some (p.bytes.take d.size)

/-- dispatch.rs:391-414, 424-436, 462-469: the message in a slot. A spilled one is released whether or
not it could be decoded. -/
def readSlot {α : Type} (dec : Bytes → Option α) (s : St) (off ss : Nat) : Option α × St :=
  match findIn s.mem off ss with
  | .bad => (none, s)
  | .bytes b => (dec b, s)
  | .spill d => ((fetch s d).bind dec, release s d)

/-- dispatch.rs:1596-1667 `recv_shm_mpsc_serde`. -/
def recv {α : Type} (c : Cfg) (dec : Bytes → Option α) (s : St) (j : Nat) : Option α × St :=
  let x := s.h j
  let lh := if x.lh = x.lt then s.hd else x.lh
  let s := s.setH j { x with lh := lh }
  if lh = x.lt then (none, s)
  else if readyAt s.mem (c.idx x.lt * x.ss) ≠ x.lt + 1 then (none, s)
  else
    match readSlot dec s (c.idx x.lt * x.ss) x.ss with
    | (none, s') => (none, s')
    | (some v, s') => (some v, { (s'.setH j { x with lh := lh, lt := x.lt + 1 }) with
        tl := if c.flushDue (x.lt + 1) then x.lt + 1 else s'.tl })

/-- mod.rs:1193-1280 `sync_local` (unchanged capacity) of handle `i`, between its calls. -/
def sync (s : St) (i : Nat) : St :=
  let x := s.h i
  if x.pend ≠ none then s else s.setH i { x with ss := s.ss, lh := s.hd, lt := max x.lt s.tl }

/-- What can happen. Schedules over the functions of topic/dispatch.rs, topic/mod.rs. -/
inductive Act
  | prep (i : Nat) (bs : Bytes) (ok : Bool)
  | claim (i : Nat)
  | recv (j : Nat)
  | sync (i : Nat)
deriving DecidableEq, Repr

/-- One transition: the result of a receive, and the next state.
Schedules over the functions of topic/dispatch.rs, topic/mod.rs. -/
def step {α : Type} (c : Cfg) (dec : Bytes → Option α) (s : St) : Act → List (Nat × Option α) × St
  | .prep i bs ok => ([], prep c s i bs ok)
  | .claim i => ([], claim c s i)
  | .recv j => ([(j, (recv c dec s j).1)], (recv c dec s j).2)
  | .sync i => ([], sync s i)

/-- A history. Schedules over the functions of topic/dispatch.rs, topic/mod.rs. -/
def run {α : Type} (c : Cfg) (dec : Bytes → Option α) (s : St) : List Act → List (Nat × Option α) × St
  | [] => ([], s)
  | a :: as =>
    let r := step c dec s a
    let q := run c dec r.2 as
    (r.1 ++ q.1, q.2)

end Horus.Serde
