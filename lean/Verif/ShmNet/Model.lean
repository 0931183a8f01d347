import Verif.Common.Bytes
/-
The out-of-process view of a topic's backing file: the layout functions of
`horus_core/src/communication/topic/shm_layout.rs`, the network writer of
`horus_net/src/shm_writer.rs` and the raw slot reader `read_slot_inner` of
`horus_core/src/communication/topic/header.rs`, all acting on the bytes of the file.

A write is the list of its individual stores, so that a crash (or a reader) may stop it
between any two of them; the payload copy is one store per byte.  A store outside the mapping,
or an atomic store at a misaligned address, is a fault (undefined behaviour or panic in Rust).
`usize` is 64 bits; integers are little-endian (`from_ne_bytes` on the supported targets).
-/
namespace Horus.ShmNet

/-- `TOPIC_MAGIC` ("ADAPTIVE"), topic/header.rs; re-exported as `MAGIC`, shm_layout.rs:57. -/
def magic : Nat := 0x4144415054495645
/-- `HEADER_SIZE`, shm_layout.rs:60 (asserted to be 640 at 178). -/
def headerSize : Nat := 640
/-- `SLOT_WRITING`, shm_layout.rs:113. -/
def slotWriting : Nat := 2 ^ 63

/-- `seq_slot_offset`, shm_layout.rs:128-131. -/
def seqSlotOff (index : Nat) : Nat := headerSize + index * 8
/-- `data_region_offset`, shm_layout.rs:137-140. -/
def dataRegionOff (cap : Nat) : Nat := headerSize + cap * 8
/-- `data_slot_offset`, shm_layout.rs:145-148. -/
def dataSlotOff (cap index stride : Nat) : Nat := dataRegionOff cap + index * stride
/-- `required_region_len`, shm_layout.rs:151-154. -/
def requiredLen (cap stride : Nat) : Nat := dataRegionOff cap + cap * stride

/-- `usize::is_power_of_two` on a value read from a `u32` field. -/
def isPow2 (n : Nat) : Bool := n != 0 && n == 2 ^ n.log2

/-- `ShmRingWriter` without the mapping and the name, shm_writer.rs:38-55. -/
structure Writer where
  typeSize : Nat
  capacity : Nat
  capMask : Nat
  slotSize : Nat
  isPod : Bool
deriving DecidableEq, Repr

/-- Stride of a slot: `if is_pod { type_size } else { slot_size }`, shm_writer.rs:103. -/
def Writer.stride (w : Writer) : Nat := if w.isPod then w.typeSize else w.slotSize

/-- `ShmRingWriter::open_path` on the bytes of an existing file, shm_writer.rs:69-117
(`POD_YES` is 2). -/
def openRegion (m : Bytes) : Option Writer :=
  if m.length < headerSize then none
  else if leAt m 0 8 ≠ magic then none
  else
    let ts := leAt m 12 4
    let pod := leAt m 20 1 == 2
    let cap := leAt m 72 4
    let mask := leAt m 76 4
    let ss := leAt m 80 4
    if cap = 0 then none
    else if isPow2 cap = false ∨ mask ≠ cap - 1 then none
    else
      let stride := if pod then ts else ss
      if stride = 0 ∨ m.length < requiredLen cap stride then none
      else some { typeSize := ts, capacity := cap, capMask := mask, slotSize := ss, isPod := pod }

/-- One store into the mapping: an atomic 8-byte store (which must be aligned) or plain bytes.
Source: topic/shm_layout.rs, topic/header.rs, shm_writer.rs. -/
structure Store where
  off : Nat
  bytes : Bytes
  atomic : Bool
deriving DecidableEq, Repr

/-- The bytes after storing `bs` at `off`. Source: topic/shm_layout.rs, topic/header.rs, shm_writer.rs. -/
def put (m : Bytes) (off : Nat) (bs : Bytes) : Bytes :=
  m.take off ++ bs ++ m.drop (off + bs.length)

/-- Perform one store; `none` is a fault (outside the mapping, or a misaligned atomic).
Source: topic/shm_layout.rs, topic/header.rs, shm_writer.rs. -/
def Store.exec (s : Store) (m : Bytes) : Option Bytes :=
  if s.off + s.bytes.length ≤ m.length ∧ (s.atomic = true → s.off % 8 = 0) then
    some (put m s.off s.bytes)
  else none

/-- Perform the stores in order. Source: topic/shm_layout.rs, topic/header.rs, shm_writer.rs. -/
def execAll : List Store → Bytes → Option Bytes
  | [], m => some m
  | s :: ss, m => match s.exec m with
    | none => none
    | some m' => execAll ss m'

/-- `load_head`, shm_writer.rs:134-144. -/
def loadHead (m : Bytes) : Nat := leAt m 64 8
/-- `messages_total`, at `OFF_MESSAGES_TOTAL`. Source: topic/shm_layout.rs, topic/header.rs, shm_writer.rs. -/
def loadTotal (m : Bytes) : Nat := leAt m 56 8

/-- Plain byte-by-byte copy (`copy_from_slice`).
Library function or literal as used by topic/shm_layout.rs, topic/header.rs, shm_writer.rs. -/
def copyStores (off : Nat) : Bytes → List Store
  | [] => []
  | b :: bs => { off := off, bytes := [b], atomic := false } :: copyStores (off + 1) bs

/-- An atomic `u64` store (`publish_ready`, `publish_head`), shm_writer.rs:147-170. -/
def wordStore (off v : Nat) : Store := { off := off, bytes := le 8 v, atomic := true }

/-- The stores `write_pod` performs, shm_writer.rs:183-224; `none` when it returns `false`.
`new_head | SLOT_WRITING` is addition below 2^63 (the counter never gets there, as the source
says); the final `fetch_add` is the store of the incremented counter (nobody else writes it
within the modelled call). -/
def writePod (w : Writer) (m payload : Bytes) : Option (List Store) :=
  if payload.length ≠ w.typeSize then none
  else
    let head := loadHead m
    let index := head &&& w.capMask
    let slotStart := dataSlotOff w.capacity index w.typeSize
    if slotStart + w.typeSize > m.length then none
    else
      let newHead := (head + 1) % 2 ^ 64
      let readyOff := seqSlotOff index
      some ([wordStore readyOff (newHead ||| slotWriting)] ++ copyStores slotStart payload ++
        [wordStore readyOff newHead, wordStore 64 newHead,
         wordStore 56 ((loadTotal m + 1) % 2 ^ 64)])

/-- The stores `write_serialized` performs, shm_writer.rs:227-267. -/
def writeSerialized (w : Writer) (m payload : Bytes) : Option (List Store) :=
  if w.slotSize < 16 then none
  else if payload.length > w.slotSize - 16 then none
  else
    let head := loadHead m
    let index := head &&& w.capMask
    let slotStart := dataSlotOff w.capacity index w.slotSize
    if slotStart + w.slotSize > m.length then none
    else
      let newHead := (head + 1) % 2 ^ 64
      some ([wordStore slotStart (newHead ||| slotWriting)] ++
        copyStores (slotStart + 8) (le 8 payload.length) ++ copyStores (slotStart + 16) payload ++
        [wordStore slotStart newHead, wordStore 64 newHead,
         wordStore 56 ((loadTotal m + 1) % 2 ^ 64)])

/-- `ShmRingWriter::write`, shm_writer.rs:125-131. -/
def write (w : Writer) (m payload : Bytes) : Option (List Store) :=
  if w.isPod then writePod w m payload else writeSerialized w m payload

/-- What reading a slot can do: nothing to return, the payload, or a panic (slice range out of
bounds, or arithmetic overflow in a debug build). Source: topic/shm_layout.rs, topic/header.rs, shm_writer.rs. -/
inductive ReadResult
  | nothing
  | payload (b : Bytes) (writeIdx : Nat)
  | panic
deriving DecidableEq, Repr

/-- `&mmap[start..end]`: panics unless `start ≤ end ≤ len`.
Source: topic/shm_layout.rs, topic/header.rs, shm_writer.rs. -/
def sliceChecked (m : Bytes) (start stop : Nat) (writeIdx : Nat) : ReadResult :=
  if start ≤ stop ∧ stop ≤ m.length then .payload (slice m start (stop - start)) writeIdx
  else .panic

/-- `read_slot_inner`, topic/header.rs:725-925, on the bytes of the file.  `data_offset +
data_len` is computed modulo 2^64, as in a release build (a debug build panics instead of
wrapping). The type name and kind returned besides the payload are left out. -/
def readSlot (m : Bytes) (last : Nat) (ordinal : Option Nat) : ReadResult :=
  if m.length < headerSize then .nothing
  else if leAt m 0 8 ≠ magic then .nothing
  else
    let ts := leAt m 12 4
    let pod := leAt m 20 1 == 2
    let wi := leAt m 56 8
    let cap := leAt m 72 4
    let mask := leAt m 76 4
    let ss := leAt m 80 4
    if cap = 0 ∨ isPow2 cap = false ∨ mask ≠ cap - 1 then .nothing
    else if wi = 0 ∨ wi = last then .nothing
    else
      let target := ordinal.getD wi
      if target = 0 ∨ target > wi then .nothing
      else if wi - target ≥ cap then .nothing
      else
        let idx := (target - 1) &&& mask
        if pod then
          if ts = 0 then .nothing
          else if m.length < dataRegionOff cap + cap * ts then .nothing
          else
            let s := dataRegionOff cap + idx * ts
            sliceChecked m s (s + ts) wi
        else
          if ss < 16 then .nothing
          else if m.length < dataRegionOff cap + cap * ss then .nothing
          else
            let s := dataRegionOff cap + idx * ss
            let len := leAt m (s + 8) 8
            if len = 0 ∨ (s + 16 + len) % 2 ^ 64 > m.length then .nothing
            else sliceChecked m (s + 16) ((s + 16 + len) % 2 ^ 64) wi

/-- `ShmRingReader`, horus_net/src/shm_reader.rs:30-37: the last write index seen. -/
structure NetReader where
  last : Nat
deriving DecidableEq, Repr

/-- `ShmRingReader::try_read_latest`, shm_reader.rs:70-98: the payload and its index, with the
position remembered. -/
def NetReader.poll (r : NetReader) (m : Bytes) : NetReader × ReadResult :=
  match readSlot m r.last none with
  | .payload b i => ({ last := i }, .payload b i)
  | x => (r, x)

/-- The loop of `read_slots_since`, header.rs:2300-2312, over the ordinals `ns`: payloads found and
the number of overwritten ones; `none` is a panic in one of the reads. `head` is the newest
message, already read. -/
def collect (m : Bytes) (wi : Nat) (head : Bytes) : List Nat → Option (List Bytes × Nat)
  | [] => some ([], 0)
  | n :: ns =>
    match (if n = wi then ReadResult.payload head wi else readSlot m 0 (some n)) with
    | .panic => none
    | .payload b _ => (collect m wi head ns).map fun r => (b :: r.1, r.2)
    | .nothing => (collect m wi head ns).map fun r => (r.1, r.2 + 1)

/-- `read_slots_since`, header.rs:2269-2314: messages after `last`, oldest first, at most `max`,
with the count of overwritten ones.  The file does not change during the call (each read maps it
afresh in Rust). Every returned message carries the same `write_idx`, the counter `messages_total`
(header.rs:921), so it is returned once, first. -/
def slotsSince (m : Bytes) (last max : Nat) : Option (Nat × List Bytes × Nat) :=
  match readSlot m last none with
  | .panic => none
  | .nothing => some (0, [], 0)
  | .payload b wi =>
    if last = 0 then some (wi, [b], 0)
    else if wi - last = 0 then some (wi, [], 0)
    else (collect m wi b (List.range' (last + 1) (min (wi - last) max))).map fun r => (wi, r)

/-- `echo_topic`'s loop body, horus_manager/src/commands/topic.rs:265-294: the position kept is the
largest `write_idx` among the messages *returned*, so it does not move when none is. -/
def echoPoll (m : Bytes) (last max : Nat) : Option (Nat × List Bytes × Nat) :=
  match slotsSince m last max with
  | none => none
  | some (wi, out, lapped) =>
    some (if out = [] then last else Nat.max last wi, out, lapped)

end Horus.ShmNet
