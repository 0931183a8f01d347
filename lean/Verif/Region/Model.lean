import Mathlib.Tactic.Common
import Mathlib.Data.List.Basic

/-!
The life of one topic's shared-memory file, system call by system call: creating or joining it
(`ShmRegion::new`), agreeing on its header (`negotiate_shm_header`), growing it, dropping it (last one
out unlinks), crashing, and the sweep for stale files that `horus topic list` makes.

Sources: horus_sys/src/shm/linux.rs, horus_sys/src/shm/mod.rs, horus_core/src/communication/topic/mod.rs,
horus_core/src/communication/topic/header.rs, horus_manager/src/discovery/topics.rs.

Simplifications. One file name; a file is an inode number with a length and a header. `flock` locks
are the kernel's: released when the process dies. `mmap`, out-of-space and permission failures are
left out. The header is either blank (magic not set) or complete, as `init` writes the magic last.
-/

namespace Horus.Region

/-- The header fields that `negotiate_shm_header` compares (topic/mod.rs:1096-1146): stored type name and
message size. The version is the same everywhere. -/
structure Hdr where
  ty : List Char
  size : Nat
  deriving DecidableEq, Repr

/-- Where a process is in its use of the file.
`fresh`: created it (linux.rs:100-107); `found`: opened an existing one (117-121); `statted`: read its
length (122-123); `ready`: about to lock (140); `locked`: holds LOCK_SH, about to map (150);
`mapped`: about to negotiate the header (topic/mod.rs:964); `waiting`: joiner waiting for the header
(topic/mod.rs:1051-1072); `live`: the topic is open; `failed`: negotiation failed, region about to be
dropped; `excl`: dropping, got LOCK_EX (linux.rs:297-302); `gone`: closed or dead;
`scan`: a sweep has listed and opened the file (topics.rs:131-139, shm/mod.rs:677); `swept`: the sweep
found it unlocked or vanished, and is about to remove the name (topics.rs:140). -/
inductive PSt
  | fresh | found | statted | ready | locked | mapped | waiting | live | failed | excl | gone | scan | swept
  deriving DecidableEq, Repr

/-- One user of the file: state, inode opened, region size, creator flag, length read by `stat`, and
the message type it wants. `late` is a ghost: it became live through the waiting loop. -/
structure Proc where
  st : PSt
  ino : Nat
  size : Nat := 0
  own : Bool := false
  seen : Nat := 0
  ty : List Char := []
  tsize : Nat := 0
  pod : Bool := true
  late : Bool := false
  deriving DecidableEq, Repr

/-- The file system as far as this name goes, and all its users. -/
structure Sys where
  link : Option Nat := none
  next : Nat := 0
  len : Nat → Nat := fun _ => 0
  hdr : Nat → Option Hdr := fun _ => none
  ps : List Proc := []

/-- Is the process between `open` and `flock` (linux.rs:100-140)? -/
def PSt.opening : PSt → Bool
  | .fresh | .found | .statted | .ready => true
  | _ => false

/-- Does it hold LOCK_SH (linux.rs:140 until the drop)? -/
def PSt.shared : PSt → Bool
  | .locked | .mapped | .waiting | .live | .failed => true
  | _ => false

/-- Does it have the file mapped (linux.rs:150 until the drop)? -/
def PSt.hasMap : PSt → Bool
  | .mapped | .waiting | .live | .failed => true
  | _ => false

/-- Does some process other than number `h` hold a lock on inode `i`? What makes `LOCK_EX | LOCK_NB`
fail (linux.rs:298, shm/mod.rs:691). -/
def Sys.lockedByOther (s : Sys) (h i : Nat) : Bool :=
  s.ps.zipIdx.any fun x => x.2 != h && x.1.ino == i && (x.1.st.shared || x.1.st == .excl)

/-- Does some process other than number `h` hold LOCK_EX on inode `i`? What makes `LOCK_SH` wait
(linux.rs:140). -/
def Sys.exclByOther (s : Sys) (h i : Nat) : Bool :=
  s.ps.zipIdx.any fun x => x.2 != h && x.1.ino == i && x.1.st == .excl

/-- `type_name_as_stored` (header.rs:1022-1032): at most 31 bytes; ASCII names here. -/
def asStored (n : List Char) : List Char := n.take 31

/-- `eq_ignore_ascii_case` (topic/mod.rs:1097-1114). -/
def sameName (a b : List Char) : Bool := a.map Char.toLower == b.map Char.toLower

/-- The universal message type (topic/mod.rs:1097-1098). -/
def generic : List Char := "GenericMessage".toList

/-- The validation of an initialised header (topic/mod.rs:1087-1146). -/
def accepts (h : Hdr) (ty : List Char) (tsize : Nat) (pod : Bool) : Bool :=
  let g := sameName ty generic || sameName h.ty generic
  (g || h.ty.isEmpty || ty.isEmpty || sameName h.ty (asStored ty)) &&
    (g || !pod || h.size == tsize)

/-- What the system calls do; each names the process that makes it. -/
inductive Act
  | new (size : Nat) (ty : List Char) (tsize : Nat) (pod : Bool)
  | advance (h : Nat)
  | timeout (h : Nat)
  | grow (h n : Nat)
  | release (h : Nat)
  | unlink (h : Nat)
  | crash (h : Nat)
  | sweep
  | sweepTest (h : Nat)

/-- Replace process `h`. -/
def Sys.put (s : Sys) (h : Nat) (p : Proc) : Sys := { s with ps := s.ps.set h p }

/-- The next step of opening (linux.rs:100-170, topic/mod.rs:1022-1148). -/
def advance (s : Sys) (h : Nat) (p : Proc) : Sys :=
  match p.st with
  | .fresh =>
    -- linux.rs:108 `set_len`
    { s.put h { p with st := .ready } with len := fun i => if i = p.ino then p.size else s.len i }
  | .found => s.put h { p with st := .statted, seen := s.len p.ino }
  | .statted =>
    -- linux.rs:124-130
    if p.seen < p.size then
      { s.put h { p with st := .ready } with len := fun i => if i = p.ino then p.size else s.len i }
    else s.put h { p with st := .ready, size := p.seen }
  | .ready => if s.exclByOther h p.ino then s else s.put h { p with st := .locked }
  | .locked =>
    -- linux.rs:150-161: the creator clears the memory
    if p.own then { s.put h { p with st := .mapped } with hdr := fun i => if i = p.ino then none else s.hdr i }
    else s.put h { p with st := .mapped }
  | .mapped =>
    match s.hdr p.ino with
    | none =>
      if p.own then
        { s.put h { p with st := .live } with
          hdr := fun i => if i = p.ino then some ⟨asStored p.ty, p.tsize⟩ else s.hdr i }
      else s.put h { p with st := .waiting }
    | some x =>
      -- topic/mod.rs:1032-1037: the creator's stale branch is unreachable (`owner_header_blank`)
      if accepts x p.ty p.tsize p.pod then s.put h { p with st := .live } else s.put h { p with st := .failed }
  | .waiting =>
    -- topic/mod.rs:1057-1072: no validation once the magic appears
    match s.hdr p.ino with
    | none => s
    | some _ => s.put h { p with st := .live, late := true }
  | _ => s

/-- One step; a step that is not enabled changes nothing. -/
def step (s : Sys) : Act → Sys
  | .new size ty tsize pod =>
    -- linux.rs:100-121: O_CREAT|O_EXCL, else open the existing file. A name removed between the two
    -- calls makes `new` return an error; that changes nothing and is left out.
    match s.link with
    | none =>
      { s with
        link := some s.next
        next := s.next + 1
        len := fun i => if i = s.next then 0 else s.len i
        hdr := fun i => if i = s.next then none else s.hdr i
        ps := s.ps ++ [{ st := .fresh, ino := s.next, size := size, own := true, ty := ty, tsize := tsize, pod := pod }] }
    | some i => { s with ps := s.ps ++ [{ st := .found, ino := i, size := size, ty := ty, tsize := tsize, pod := pod }] }
  | .advance h =>
    match s.ps[h]? with
    | some p => advance s h p
    | none => s
  | .timeout h =>
    -- topic/mod.rs:1063-1069
    match s.ps[h]? with
    | some p => if p.st = .waiting then s.put h { p with st := .failed } else s
    | none => s
  | .grow h n =>
    -- linux.rs:224-258
    match s.ps[h]? with
    | some p =>
      if p.st = .live ∧ p.size < n then
        { s.put h { p with size := n } with len := fun i => if i = p.ino then n else s.len i }
      else s
    | none => s
  | .release h =>
    -- linux.rs:297-302
    match s.ps[h]? with
    | some p =>
      if p.st = .live ∨ p.st = .failed then
        (if s.lockedByOther h p.ino then s.put h { p with st := .gone } else s.put h { p with st := .excl })
      else s
    | none => s
  | .unlink h =>
    -- linux.rs:304-308 and topics.rs:140: whatever file the name now means
    match s.ps[h]? with
    | some p =>
      if p.st = .excl ∨ p.st = .swept then { s.put h { p with st := .gone } with link := none } else s
    | none => s
  | .crash h =>
    match s.ps[h]? with
    | some p => s.put h { p with st := .gone }
    | none => s
  | .sweep =>
    match s.link with
    | some i => { s with ps := s.ps ++ [{ st := .scan, ino := i }] }
    | none =>
      -- listed earlier, vanished by now (shm/mod.rs:685 answers "stale")
      if s.next = 0 then s else { s with ps := s.ps ++ [{ st := .swept, ino := 0 }] }
  | .sweepTest h =>
    -- horus_sys/src/shm/mod.rs:689-709: lock and unlock at once
    match s.ps[h]? with
    | some p =>
      if p.st = .scan then
        (if s.lockedByOther h p.ino then s.put h { p with st := .gone } else s.put h { p with st := .swept })
      else s
    | none => s

/-- Any history. -/
def run (s : Sys) (as : List Act) : Sys := as.foldl step s

/-- A file name that nobody uses yet. -/
def Sys.init : Sys := {}

end Horus.Region
