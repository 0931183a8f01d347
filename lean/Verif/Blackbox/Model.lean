import Verif.Common.Bytes
/-
Model of horus_core/src/scheduling/blackbox.rs, of the file operations it relies on, and of the reader in
horus_manager/src/commands/blackbox.rs.

Records are of any type `α` (the event with its time stamp), together with the tick they carry. The
JSON codec is a parameter. Writes to files succeed and reach the file in order (`BufWriter` is modelled,
the page cache is not: a crash is a crash of the process).
-/
namespace Horus.Blackbox

/-! ### Buffered writer -/

/-- Default capacity of `std::io::BufWriter`, used in `with_path` (blackbox.rs:204). -/
abbrev bufCap : Nat := 8192

/-- A file open for appending behind a `BufWriter` (blackbox.rs:103-104). -/
structure Wal where
  disk : Bytes
  buf : Bytes
deriving DecidableEq

/-- `BufWriter::flush` (standard library). Library function or literal as used by scheduling/blackbox.rs. -/
def Wal.flush (w : Wal) : Wal := ⟨w.disk ++ w.buf, []⟩

/-- `BufWriter::write_all` (standard library): data that fits is buffered; otherwise the buffer is
written out, and data of at least the buffer's size is written directly.
Library function or literal as used by scheduling/blackbox.rs. -/
def Wal.write (w : Wal) (b : Bytes) : Wal :=
  if b.length < bufCap - w.buf.length then ⟨w.disk, w.buf ++ b⟩
  else
    let w := if b.length > bufCap - w.buf.length then w.flush else w
    if b.length ≥ bufCap then ⟨w.disk ++ b, w.buf⟩ else ⟨w.disk, w.buf ++ b⟩

/-- `writeln!(wal, "{}", json)` (blackbox.rs:236): the text, then the line feed. -/
def Wal.writeln (w : Wal) (text : Bytes) : Wal := (w.write text).write [10]

/-! ### The recorder -/

/-- `BlackBoxRecord` (blackbox.rs:81-89). -/
structure Rec (α : Type) where
  tick : Nat
  event : α
deriving DecidableEq

/-- The two formats of `blackbox.json` (blackbox.rs:131-141, 336-343). -/
inductive Snapshot (α : Type) where
  | withLoss (lost : Nat) (events : List (Rec α))
  | bare (events : List (Rec α))

/-- `BlackBox` (blackbox.rs:92-129). -/
structure Box (α : Type) where
  buffer : List (Rec α)
  maxSize : Nat
  tickCounter : Nat
  wal : Option Wal
  enabled : Bool
  interval : Nat
  since : Nat
  lost : Nat

/-- `BlackBox::new` (blackbox.rs:145-163). -/
def Box.new {α : Type} (maxSizeMb : Nat) : Box α :=
  { buffer := [], maxSize := max (maxSizeMb * 1024 * 1024 / 200) 1000, tickCounter := 0, wal := none,
    enabled := decide (maxSizeMb > 0), interval := 64, since := 0, lost := 0 }

/-- `with_wal_flush_interval` (blackbox.rs:178-181). -/
def Box.withInterval {α : Type} (b : Box α) (n : Nat) : Box α := { b with interval := max n 1 }

/-- `with_path` (blackbox.rs:188-213): the log is opened for appending to what the file holds. -/
def Box.withPath {α : Type} (b : Box α) (file : Bytes) : Box α := { b with wal := some ⟨file, []⟩ }

/-- `record` (blackbox.rs:216-258). Serialization never fails. -/
def Box.record {α : Type} (enc : Rec α → Bytes) (b : Box α) (e : α) : Box α :=
  if b.enabled = false then b
  else
    let r : Rec α := ⟨b.tickCounter, e⟩
    let b := match b.wal with
      | none => b
      | some w =>
        let w := w.writeln (enc r)
        if b.since + 1 ≥ b.interval then { b with wal := some w.flush, since := 0 }
        else { b with wal := some w, since := b.since + 1 }
    if b.buffer.length ≥ b.maxSize then { b with buffer := b.buffer.drop 1 ++ [r], lost := b.lost + 1 }
    else { b with buffer := b.buffer ++ [r] }

/-- `flush_wal` (blackbox.rs:265-270). -/
def Box.flushWal {α : Type} (b : Box α) : Box α :=
  match b.wal with
  | none => b
  | some w => { b with wal := some w.flush, since := 0 }

/-- `tick` (blackbox.rs:273-275). -/
def Box.tick {α : Type} (b : Box α) : Box α := { b with tickCounter := b.tickCounter + 1 }

/-- `clear` (blackbox.rs:352-356). -/
def Box.clear {α : Type} (b : Box α) : Box α := { b with buffer := [], tickCounter := 0, lost := 0 }

/-- What `save` writes (blackbox.rs:309-327). -/
def Box.snapshot {α : Type} (b : Box α) : Snapshot α := .withLoss b.lost b.buffer

/-- `load` of a file that parses (blackbox.rs:334-345). -/
def Box.restore {α : Type} (b : Box α) : Snapshot α → Box α
  | .withLoss n es => { b with lost := n, buffer := es }
  | .bare es => { b with buffer := es, lost := 0 }

/-- `load` (blackbox.rs:332-353): `none` is the error for a file that does not parse. -/
def Box.load {α : Type} (dec : Bytes → Option (Snapshot α)) (b : Box α) : Option Bytes → Option (Box α)
  | none => some b
  | some content => (dec content).map b.restore

/-- The snapshot file while `save` runs (blackbox.rs:311-319): created empty, then written; `k` bytes have
reached it. -/
def savedUpTo {α : Type} (encS : Snapshot α → Bytes) (b : Box α) (k : Nat) : Bytes := (encS b.snapshot).take k

/-- What can happen to a recorder. Schedules over the functions of scheduling/blackbox.rs. -/
inductive Op (α : Type) where
  | record (e : α)
  | tick
  | flush
  | clear

/-- One step. Schedules over the functions of scheduling/blackbox.rs. -/
def Box.op {α : Type} (enc : Rec α → Bytes) (b : Box α) : Op α → Box α
  | .record e => b.record enc e
  | .tick => b.tick
  | .flush => b.flushWal
  | .clear => b.clear

/-- A history. Schedules over the functions of scheduling/blackbox.rs. -/
def Box.ops {α : Type} (enc : Rec α → Bytes) (b : Box α) (l : List (Op α)) : Box α := l.foldl (Box.op enc) b

/-! ### The reader -/

/-- `BufRead::lines`: the parts between line feeds (horus_manager/src/commands/blackbox.rs:184). A last
empty part is dropped with the empty lines below. -/
def lines : Bytes → List Bytes
  | [] => [[]]
  | c :: cs =>
    if c = 10 then [] :: lines cs
    else match lines cs with
      | [] => [[c]]
      | l :: ls => (c :: l) :: ls

/-- `load_wal` (horus_manager/src/commands/blackbox.rs:179-202): lines that parse, the others are
skipped. `dec` includes the trimming and refuses the empty line. -/
def loadWal {α : Type} (dec : Bytes → Option (Rec α)) (file : Bytes) : List (Rec α) := (lines file).filterMap dec

/-- `load_blackbox_records` (horus_manager/src/commands/blackbox.rs:158-176): the log if it exists,
else the snapshot, read as a bare list of events. `none` is the error. -/
def loadRecords {α : Type} (dec : Bytes → Option (Rec α)) (wal : Option Bytes) (json : Option (Snapshot α)) :
    Option (List (Rec α)) :=
  match wal with
  | some w => some (loadWal dec w)
  | none =>
    match json with
    | some (.bare es) => some es
    | some (.withLoss _ _) => none
    | none => some []

end Horus.Blackbox
