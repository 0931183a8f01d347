import Verif.Common.Bytes
import Verif.Common.Map
/-
Remote presence: `horus_net/src/presence.rs` (incoming broadcasts become files in the nodes
directory; stale files are removed) and the directory scan of
`horus_core/src/core/presence.rs`.

Text is a list of characters.  `String::from_utf8_lossy` is a parameter `dec : Bytes → Text`
(every theorem holds whatever it returns; the round trip needs it to invert UTF-8 encoding), and
so is the rendering of a rate, `fmt : Nat → Text`.  Slice accesses are checked: an access outside
the packet is `none`, a panic.
-/
namespace Horus.Presence

/-- A Rust `String`. Library function or literal as used by presence.rs. -/
abbrev Text := List Char

/-- UTF-8 encoding of a string (`as_bytes`). Library function or literal as used by presence.rs. -/
def enc (s : Text) : Bytes := s.flatMap String.utf8EncodeChar

/-- One component of a path (`std::path::Component` on Unix). Library function or literal as used by presence.rs. -/
inductive Comp
  | root
  | cur
  | parent
  | normal (s : Text)
deriving DecidableEq, Repr

/-- Pieces of a path between `/`. Source: presence.rs. -/
def segs : Text → List Text
  | [] => [[]]
  | c :: cs =>
    if c = '/' then [] :: segs cs
    else match segs cs with
      | [] => [[c]]
      | s :: ss => (c :: s) :: ss

/-- A piece that is not the first: empty pieces and `.` vanish. Source: presence.rs. -/
def innerComp (s : Text) : Option Comp :=
  if s = [] ∨ s = ['.'] then none
  else if s = ['.', '.'] then some .parent
  else some (.normal s)

/-- The first piece: a leading `.` is kept. Source: presence.rs. -/
def firstComp (s : Text) : Option Comp :=
  if s = ['.'] then some .cur else innerComp s

/-- `Path::components` (Unix rules of the Rust standard library). Library function or literal as used by presence.rs. -/
def components (p : Text) : List Comp :=
  (if p.head? = some '/' then [.root] else []) ++
    match segs p with
    | [] => []
    | s :: ss => (firstComp s).toList ++ ss.filterMap innerComp

/-- `name.contains("..")`. Source: presence.rs. -/
def hasDotDot : Text → Bool
  | a :: b :: r => (a == '.' && b == '.') || hasDotDot (b :: r)
  | _ => false

/-- `is_safe_path_component`, presence.rs:25-35. -/
def isSafe (name : Text) : Bool :=
  if name = [] ∨ (enc name).length > 128 then false
  else if name.contains '/' || name.contains '\\' || name.contains '\x00' || hasDotDot name then
    false
  else match components name with
    | [.normal _] => true
    | _ => false

/-- `dir.join(name)` for a non-empty directory and a relative name. Library function or literal as used by presence.rs. -/
def join (dir name : Text) : Text :=
  if dir.getLast? = some '/' then dir ++ name else dir ++ '/' :: name

/-- The literal `remote_`. Library function or literal as used by presence.rs. -/
def remotePfx : Text := ['r', 'e', 'm', 'o', 't', 'e', '_']
/-- The literal `bridged_`. Library function or literal as used by presence.rs. -/
def bridgedPfx : Text := ['b', 'r', 'i', 'd', 'g', 'e', 'd', '_']
/-- The literal `.json`. Library function or literal as used by presence.rs. -/
def jsonExt : Text := ['.', 'j', 's', 'o', 'n']
/-- The literal `.tmp`. Library function or literal as used by presence.rs. -/
def tmpExt : Text := ['.', 't', 'm', 'p']

/-- `remote_{host_id}.json`, presence.rs:181. -/
def fileName (host : Text) : Text := remotePfx ++ host ++ jsonExt

/-- The temporary file, `with_extension("json.tmp")`, presence.rs:193. -/
def tmpName (host : Text) : Text := fileName host ++ tmpExt

/-- `u16::from_le_bytes([data[pos], data[pos+1]])`; `none` is an index panic. -/
def u16At (d : Bytes) (p : Nat) : Option Nat := if p + 2 ≤ d.length then some (leAt d p 2) else none
/-- Eight indexed bytes as a `u64`. -/
def u64At (d : Bytes) (p : Nat) : Option Nat := if p + 8 ≤ d.length then some (leAt d p 8) else none
/-- `&data[pos..pos+len]`. Source: presence.rs. -/
def sliceAt (d : Bytes) (p len : Nat) : Option Bytes :=
  if p + len ≤ d.length then some (slice d p len) else none

/-- The node loop, presence.rs:131-173: up to `count` entries, stopping early (not failing) at a
truncated one. Result: name and rate bits of each. -/
def parseNodes (dec : Bytes → Text) (d : Bytes) : Nat → Nat → Option (List (Text × Nat))
  | 0, _ => some []
  | n + 1, pos =>
    if pos + 2 > d.length then some []
    else match u16At d pos with
      | none => none
      | some len =>
        if pos + 2 + len > d.length then some []
        else match sliceAt d (pos + 2) len with
          | none => none
          | some nm =>
            if pos + 2 + len + 8 > d.length then some []
            else match u64At d (pos + 2 + len) with
              | none => none
              | some rate =>
                match parseNodes dec d n (pos + 2 + len + 8) with
                | none => none
                | some rest => some ((dec nm, rate) :: rest)

/-- What a broadcast says, once accepted. Source: presence.rs. -/
structure Record where
  host : Text
  stamp : Nat
  ns : Text
  nodes : List (Text × Nat)
deriving DecidableEq, Repr

/-- Result of decoding a packet. Source: presence.rs. -/
inductive Parsed
  | panic
  | ignored
  | accepted (r : Record)
deriving DecidableEq, Repr

/-- The decoding half of `handle_broadcast`, presence.rs:71-173. -/
def parse (dec : Bytes → Text) (localNs : Text) (d : Bytes) : Parsed :=
  if d.length < 6 then .ignored
  else match u16At d 0 with
  | none => .panic
  | some nsLen =>
    if 2 + nsLen > d.length then .ignored
    else match sliceAt d 2 nsLen with
    | none => .panic
    | some nsB =>
      if dec nsB ≠ localNs then .ignored
      else
        let p := 2 + nsLen
        if p + 2 > d.length then .ignored
        else match u16At d p with
        | none => .panic
        | some hLen =>
          if p + 2 + hLen > d.length then .ignored
          else match sliceAt d (p + 2) hLen with
          | none => .panic
          | some hB =>
            if isSafe (dec hB) = false then .ignored
            else
              let q := p + 2 + hLen
              if q + 8 > d.length then .ignored
              else match u64At d q with
              | none => .panic
              | some ts =>
                if q + 8 + 2 > d.length then .ignored
                else match u16At d (q + 8) with
                | none => .panic
                | some cnt =>
                  match parseNodes dec d cnt (q + 10) with
                  | none => .panic
                  | some nodes => .accepted { host := dec hB, stamp := ts, ns := dec nsB, nodes := nodes }

/-- A string literal as text. Library function or literal as used by presence.rs. -/
def lit (s : String) : Text := s.toList

/-- One node entry of the file, presence.rs:163-171 (the name is not escaped). -/
def nodeJson (fmt : Nat → Text) (x : Text × Nat) : Text :=
  lit "{\"name\":\"" ++ x.1 ++ lit "\",\"rate_hz\":" ++ fmt x.2 ++ lit "}"

/-- `join(",")`. Library function or literal as used by presence.rs. -/
def commaJoin : List Text → Text
  | [] => []
  | [x] => x
  | x :: y :: r => x ++ ',' :: commaJoin (y :: r)

/-- The file content, presence.rs:184-190. -/
def render (fmt : Nat → Text) (showNat : Nat → Text) (r : Record) : Text :=
  lit "{\"host_id\":\"" ++ r.host ++ lit "\",\"is_remote\":true,\"last_seen_ns\":" ++
  showNat r.stamp ++ lit ",\"namespace\":\"" ++ r.ns ++ lit "\",\"nodes\":[" ++
  commaJoin (r.nodes.map (nodeJson fmt)) ++ lit "]}"

/-- Receiver and the files of the nodes directory; `clock` is the monotonic time (ns) of the last
event. Files are listed by path with the record they render (the text is `render`). Source: presence.rs. -/
structure State where
  active : Map Text (Text × Nat)
  files : Map Text Record
  clock : Nat

/-- What can happen: a packet arrives `dt` after the previous event (its file write and rename
succeed or not), or the stale files are cleaned up. Schedules over the functions of presence.rs. -/
inductive Event
  | packet (dt : Nat) (data : Bytes) (ioOk : Bool)
  | cleanup (dt : Nat)

/-- Fixed environment: directory, decoder, own namespace. Source: presence.rs. -/
structure Env where
  dir : Text
  dec : Bytes → Text
  ns : Text

/-- `DEAD_TIMEOUT`, presence.rs:18, in nanoseconds. -/
def deadTimeout : Nat := 30000000000

/-- `handle_broadcast`, presence.rs:71-205, and `cleanup_stale`, presence.rs:208-222, with the
paths each creates, replaces or deletes. A failed write or rename leaves the previous file; the
host is recorded as active either way (presence.rs:203-204). -/
def step (e : Env) (s : State) : Event → State × List Text
  | .packet dt data ok =>
    match parse e.dec e.ns data with
    | .accepted r =>
      let path := join e.dir (fileName r.host)
      ({ active := s.active.set r.host (path, s.clock + dt),
         files := if ok then s.files.set path r else s.files,
         clock := s.clock + dt },
       [join e.dir (tmpName r.host), path])
    | _ => ({ s with clock := s.clock + dt }, [])
  | .cleanup dt =>
    let now := s.clock + dt
    let stale := s.active.filter fun x => decide (now - x.2.2 > deadTimeout)
    ({ active := s.active.filter fun x => decide (now - x.2.2 ≤ deadTimeout),
       files := s.files.filter fun f => !(stale.map fun x => x.2.1).contains f.1,
       clock := now },
     stale.map fun x => x.2.1)

/-- `PresenceReceiver::new` in an empty directory. Source: presence.rs. -/
def init : State := { active := [], files := [], clock := 0 }

/-- A history of events and every path it touched. Schedules over the functions of presence.rs. -/
def run (e : Env) : State → List Event → State × List Text
  | s, [] => (s, [])
  | s, ev :: evs =>
    let r := step e s ev
    let q := run e r.1 evs
    (q.1, r.2 ++ q.2)

/-- `build_local_presence`, presence.rs:239-289: lengths and the count are cast to `u16`. -/
def build (ns host : Text) (stamp : Nat) (nodes : List (Text × Nat)) : Bytes :=
  le 2 (enc ns).length ++ enc ns ++ le 2 (enc host).length ++ enc host ++ le 8 stamp ++
  le 2 nodes.length ++
  nodes.flatMap fun x => le 2 (enc x.1).length ++ enc x.1 ++ le 8 x.2

/-- What a file of the nodes directory is to the local scan. Source: presence.rs. -/
inductive Kind
  | node (alive : Bool)
  | unparseable (old : Bool)
  | unreadable
deriving DecidableEq, Repr

/-- `is_host_record`, core/presence.rs:102-106, on the file name. -/
def isHostRecord (file : Text) : Bool :=
  remotePfx.isPrefixOf file || bridgedPfx.isPrefixOf file

/-- `NodePresence::read_all`, core/presence.rs:496-548: is this file listed, is it kept? -/
def scanOne (file : Text) (k : Kind) : Bool × Bool :=
  if isHostRecord file then (false, true)
  else if jsonExt.isSuffixOf file then
    match k with
    | .node alive => if alive then (true, true) else (false, false)
    | .unparseable old => (false, !old)
    | .unreadable => (false, true)
  else (false, true)

/-- `NodePresence::presence_path`, core/presence.rs:419-421: file name of a local node. -/
def localFile (node : Text) : Text := node ++ jsonExt

end Horus.Presence
