import Verif.Ring.Common
/-
Model of the shared tensor pool: horus_core/src/memory/tensor_pool.rs (alloc 705-872, retain 969-1000,
try_retain 1007-1084, release 1092-1125, find_free_slot 1583-1604, pop_and_claim 1624-1648,
reclaim_dead_slots 1659-1709, return_slot 1716-1791, push_free_slot 1798-1816) and of the bump
allocator behind it (horus_core/src/memory/backend.rs:235-276).
Any number of threads of any processes run these functions concurrently. One transition per access to
shared memory; a weak compare-and-exchange may fail for no reason (the flag of the action).
Simplifications: sequentially consistent memory; the 64-bit generation, the 32-bit tag of the free
stack and the reference count are natural numbers; the plain fields offset, size and capacity, written
only by the thread that holds the slot, are written in one transition; scrubbing a slot is one
transition; `INVALID_SLOT` is `none`; try_release is release with an error report; retain, release and
try_retain are given the slot in range and the right pool id (otherwise they do nothing); waiting in
alloc_with_timeout is repeated alloc. Shapes and sizes are modelled in Verif.Pool.Shape.
-/
namespace Horus.Pool
open Horus.Ring (upd upd_same upd_ne)

/-- TensorPoolConfig (tensor_pool.rs:185-205) and the process id of each thread. -/
structure Cfg where
  slots : Nat
  size : Nat
  align : Nat
  pid : Nat → Nat

/-- The next multiple of the alignment (tensor_pool.rs:1876-1887, backend.rs:229-231: the bit formula
for a power of two, see `Shape.alignUp_spec`). -/
def Cfg.roundUp (c : Cfg) (n : Nat) : Nat := if c.align ≤ 1 then n else (n + (c.align - 1)) / c.align * c.align

/-- The fields of a Tensor descriptor that address memory (types/tensor.rs). -/
structure Desc where
  slot : Nat
  gen : Nat
  offset : Nat
  size : Nat
deriving DecidableEq

/-- SlotHeader (tensor_pool.rs:148-182); `alloc` is the flag SLOT_ALLOCATED. -/
structure Slot where
  rc : Nat
  alloc : Bool
  gen : Nat
  offset : Nat
  size : Nat
  cap : Nat
  next : Option Nat
  owner : Nat
deriving DecidableEq

/-- Where a thread goes when a slot has been pushed: back to its caller, or on with the scan for dead
owners (`n` slots reclaimed so far). Source: memory/tensor_pool.rs:705-1125, 1583-1816. -/
inductive Cont
  | done
  | scan (r j n : Nat)
deriving DecidableEq

/-- Where a thread is. `r` is the number of bytes requested, `i` a slot, `g` the new generation, `o` the
offset of the region; `again` tells the first pop of find_free_slot from the second.
Source: memory/tensor_pool.rs:705-1125, 1583-1816. -/
inductive Pc
  | idle
  -- find_free_slot and pop_and_claim
  | popHead (r : Nat) (again : Bool)
  | popNext (r : Nat) (again : Bool) (tag i : Nat)
  | popCas (r : Nat) (again : Bool) (tag i : Nat) (nx : Option Nat)
  | claimOwner (r i : Nat)
  | claimFlags (r i : Nat)
  -- alloc
  | choose (r i : Nat)
  | reuseGen (r i : Nat)
  | setSize (r i g : Nat)
  | bumpLoad (r i : Nat)
  | bumpCas (r i cur : Nat)
  | freshGen (r i o : Nat)
  | fields (r i g o : Nat)
  | setOwner (r i g o : Nat)
  | setRc (r i g o : Nat)
  | setFlags (r i g o : Nat)
  -- release
  | relGen (d : Desc)
  | relLoad (d : Desc)
  | relCas (d : Desc) (cur : Nat)
  -- retain
  | keepGen (d : Desc)
  | keepLoad (d : Desc)
  | keepCas (d : Desc) (cur : Nat)
  -- try_retain
  | tryGen (d : Desc)
  | tryLoad (d : Desc)
  | tryCas (d : Desc) (cur : Nat)
  | tryCheck (d : Desc)
  | tryUndo (d : Desc)
  -- return_slot and push_free_slot
  | retZero (i : Nat)
  | retOwner (i : Nat)
  | retFlags (i : Nat)
  | pushHead (i : Nat) (k : Cont)
  | pushNext (i : Nat) (k : Cont) (tag : Nat) (h : Option Nat)
  | pushCas (i : Nat) (k : Cont) (tag : Nat) (h : Option Nat)
  -- reclaim_dead_slots
  | scanFlags (r j n : Nat)
  | scanOwner (r j n : Nat)
  | scanCas (r j n : Nat)
  | scanRc (r j n : Nat)
  | scanClear (r j n : Nat)
  | scanGen (r j n : Nat)
deriving DecidableEq

/-- Who disposes of a slot (ghost): the free stack, one thread, or the holders of references.
Ghost or helper of the model of memory/tensor_pool.rs:705-1125, 1583-1816. -/
inductive Own
  | free
  | held (t : Nat)
  | live
deriving DecidableEq

/-- Shared memory, threads, dead processes. Ghost: `stk` the slots on the free stack from the top,
`own`, `busy i` the threads that have one unit of slot `i`'s reference count in their custody, `refs`
the references held by users (one entry per reference), `issued` every descriptor ever returned.
Ghost or helper of the model of memory/tensor_pool.rs:705-1125, 1583-1816. -/
structure St where
  head : Nat × Option Nat
  bump : Nat
  slot : Nat → Slot
  mem : Nat → Nat
  thr : Nat → Pc
  dead : List Nat
  stk : List Nat
  own : Nat → Own
  busy : Nat → List Nat
  refs : List Desc
  issued : List Desc

/-- tensor_pool.rs:572-597: slots are stacked in ascending order, the last on top. -/
def initStack (n : Nat) : List Nat := (List.range n).reverse

/-- initialize (tensor_pool.rs:557-619): every slot zero and on the stack. -/
def St.init (c : Cfg) : St where
  head := (0, (initStack c.slots).head?)
  bump := 0
  slot := fun i => ⟨0, false, 0, 0, 0, 0, if i = 0 then none else some (i - 1), 0⟩
  mem := fun _ => 0
  thr := fun _ => .idle
  dead := []
  stk := initStack c.slots
  own := fun _ => .free
  busy := fun _ => []
  refs := []
  issued := []

/-- The public operations. Schedules over the functions of memory/tensor_pool.rs:705-1125, 1583-1816. -/
inductive Op
  | alloc (r : Nat)
  | release (d : Desc)
  | retain (d : Desc)
  | tryRetain (d : Desc)
deriving DecidableEq

/-- What can happen: a thread calls an operation, a thread makes one step, a user stores byte `v` at
position `x` of a tensor through data_slice_mut, a process dies.
Schedules over the functions of memory/tensor_pool.rs:705-1125, 1583-1816. -/
inductive Act
  | start (t : Nat) (op : Op)
  | step (t : Nat) (ok : Bool)
  | write (d : Desc) (x v : Nat)
  | crash (pid : Nat)
deriving DecidableEq

/-- Move a thread. Ghost or helper of the model of memory/tensor_pool.rs:705-1125, 1583-1816. -/
def setThr (s : St) (t : Nat) (pc : Pc) : St := { s with thr := upd s.thr t pc }
/-- Replace a slot header. Ghost or helper of the model of memory/tensor_pool.rs:705-1125, 1583-1816. -/
def setSlot (s : St) (i : Nat) (x : Slot) : St := { s with slot := upd s.slot i x }

/-- The custody of one unit of a slot's count passes from the user to the thread that was called.
Ghost or helper of the model of memory/tensor_pool.rs:705-1125, 1583-1816. -/
def take (s : St) (t : Nat) (d : Desc) : St :=
  { s with refs := s.refs.erase d, busy := upd s.busy d.slot (t :: s.busy d.slot) }

/-- The custody ends. Ghost or helper of the model of memory/tensor_pool.rs:705-1125, 1583-1816. -/
def drop (s : St) (t i : Nat) : St := { s with busy := upd s.busy i ((s.busy i).erase t) }

/-- A thread enters an operation: alloc (tensor_pool.rs:1590-1605), release, retain, try_retain. -/
def start (s : St) (t : Nat) : Op → St
  | .alloc r => setThr s t (.popHead r false)
  | .release d => setThr (take s t d) t (.relGen d)
  | .retain d => setThr (take s t d) t (.keepGen d)
  | .tryRetain d => setThr s t (.tryGen d)

/-- A failed operation of a caller that still has its reference.
Ghost or helper of the model of memory/tensor_pool.rs:705-1125, 1583-1816. -/
def giveBack (s : St) (t : Nat) (d : Desc) : St := { drop s t d.slot with refs := d :: s.refs }

/-- Where a thread goes on after pushing a slot: done, or the next slot of the reclaiming scan (tensor_pool.rs:1596). -/
def contPc : Cont → Pc
  | .done => .idle
  | .scan r j n => .scanFlags r (j + 1) (n + 1)

/-- One step of thread `t`. Schedules over the functions of memory/tensor_pool.rs:705-1125, 1583-1816. -/
def stepThr (c : Cfg) (s : St) (t : Nat) (ok : Bool) : St :=
  match s.thr t with
  | .idle => s
  -- tensor_pool.rs:1627-1632: load the head; empty: reclaim (1596), or fail after the second pop (1601)
  | .popHead r again =>
    match s.head.2 with
    | none => setThr s t (if again then .idle else .scanFlags r 0 0)
    | some i => setThr s t (.popNext r again s.head.1 i)
  -- 1633-1634
  | .popNext r again tag i => setThr s t (.popCas r again tag i (s.slot i).next)
  -- 1636-1640
  | .popCas r again tag i nx =>
    if ok = true ∧ s.head = (tag, some i) then
      setThr { s with head := (tag + 1, nx), stk := s.stk.tail, own := upd s.own i (.held t) } t (.claimOwner r i)
    else setThr s t (.popHead r again)
  -- 1642
  | .claimOwner r i => setThr (setSlot s i { s.slot i with owner := c.pid t }) t (.claimFlags r i)
  -- 1643
  | .claimFlags r i => setThr (setSlot s i { s.slot i with alloc := true }) t (.choose r i)
  -- 785-787: reuse the slot's region if the request fits
  | .choose r i =>
    if 0 < (s.slot i).cap ∧ c.roundUp r ≤ (s.slot i).cap then setThr s t (.reuseGen r i)
    else setThr s t (.bumpLoad r i)
  -- 791
  | .reuseGen r i =>
    setThr (setSlot s i { s.slot i with gen := (s.slot i).gen + 1 }) t (.setSize r i ((s.slot i).gen + 1))
  -- 792
  | .setSize r i g => setThr (setSlot s i { s.slot i with size := r }) t (.setOwner r i g (s.slot i).offset)
  -- backend.rs:241-255; failure: tensor_pool.rs:815-818
  | .bumpLoad r i =>
    if c.size < c.roundUp s.bump + c.roundUp r then setThr s t (.pushHead i .done)
    else setThr s t (.bumpCas r i s.bump)
  -- backend.rs:257-271
  | .bumpCas r i cur =>
    if ok = true ∧ s.bump = cur then
      setThr { s with bump := c.roundUp cur + c.roundUp r } t (.freshGen r i (c.roundUp cur))
    else setThr s t (.bumpLoad r i)
  -- 852
  | .freshGen r i o =>
    setThr (setSlot s i { s.slot i with gen := (s.slot i).gen + 1 }) t (.fields r i ((s.slot i).gen + 1) o)
  -- 853-859
  | .fields r i g o =>
    setThr (setSlot s i { s.slot i with offset := o, size := r, cap := c.roundUp r }) t (.setOwner r i g o)
  -- 793, 860
  | .setOwner r i g o => setThr (setSlot s i { s.slot i with owner := c.pid t }) t (.setRc r i g o)
  -- 794, 861
  | .setRc r i g o =>
    setThr { setSlot s i { s.slot i with rc := 1 } with busy := upd s.busy i (t :: s.busy i) } t (.setFlags r i g o)
  -- 795, 862: and the descriptor is returned
  | .setFlags r i g o =>
    setThr { drop (setSlot s i { s.slot i with alloc := true }) t i with
      own := upd s.own i .live, refs := ⟨i, g, o, r⟩ :: s.refs, issued := ⟨i, g, o, r⟩ :: s.issued } t .idle
  -- 1103-1105
  | .relGen d =>
    if (s.slot d.slot).gen = d.gen then setThr s t (.relLoad d) else setThr (drop s t d.slot) t .idle
  -- 1110-1113
  | .relLoad d =>
    if (s.slot d.slot).rc = 0 then setThr (drop s t d.slot) t .idle
    else setThr s t (.relCas d (s.slot d.slot).rc)
  -- 1114-1123
  | .relCas d cur =>
    if ok = true ∧ (s.slot d.slot).rc = cur then
      let s' := drop (setSlot s d.slot { s.slot d.slot with rc := cur - 1 }) t d.slot
      if cur = 1 then setThr { s' with own := upd s.own d.slot (.held t) } t (.retZero d.slot)
      else setThr s' t .idle
    else setThr s t (.relLoad d)
  -- 980-982
  | .keepGen d =>
    if (s.slot d.slot).gen = d.gen then setThr s t (.keepLoad d) else setThr (giveBack s t d) t .idle
  -- 988-991
  | .keepLoad d =>
    if (s.slot d.slot).rc = 0 then setThr (giveBack s t d) t .idle
    else setThr s t (.keepCas d (s.slot d.slot).rc)
  -- 992-998
  | .keepCas d cur =>
    if ok = true ∧ (s.slot d.slot).rc = cur then
      setThr { giveBack (setSlot s d.slot { s.slot d.slot with rc := cur + 1 }) t d with refs := d :: d :: s.refs } t .idle
    else setThr s t (.keepLoad d)
  -- 1027-1037
  | .tryGen d => if (s.slot d.slot).gen = d.gen then setThr s t (.tryLoad d) else setThr s t .idle
  -- 1042-1050
  | .tryLoad d =>
    if (s.slot d.slot).rc = 0 then setThr s t .idle else setThr s t (.tryCas d (s.slot d.slot).rc)
  -- 1051-1055
  | .tryCas d cur =>
    if ok = true ∧ (s.slot d.slot).rc = cur then
      setThr { setSlot s d.slot { s.slot d.slot with rc := cur + 1 } with
        busy := upd s.busy d.slot (t :: s.busy d.slot) } t (.tryCheck d)
    else setThr s t (.tryLoad d)
  -- 1065, 1080
  | .tryCheck d =>
    if (s.slot d.slot).gen = d.gen then setThr (giveBack s t d) t .idle else setThr s t (.tryUndo d)
  -- 1066-1072
  | .tryUndo d =>
    let s' := drop (setSlot s d.slot { s.slot d.slot with rc := (s.slot d.slot).rc - 1 }) t d.slot
    if (s.slot d.slot).rc = 1 then setThr { s' with own := upd s.own d.slot (.held t) } t (.retZero d.slot)
    else setThr s' t .idle
  -- 1732-1755
  | .retZero i =>
    setThr { s with mem := fun x => if (s.slot i).offset ≤ x ∧ x < (s.slot i).offset + (s.slot i).size then 0 else s.mem x }
      t (.retOwner i)
  -- 1763
  | .retOwner i => setThr (setSlot s i { s.slot i with owner := 0 }) t (.retFlags i)
  -- 1764
  | .retFlags i => setThr (setSlot s i { s.slot i with alloc := false }) t (.pushHead i .done)
  -- 1768-1769, 1803-1804
  | .pushHead i k => setThr s t (.pushNext i k s.head.1 s.head.2)
  -- 1770, 1805
  | .pushNext i k tag h => setThr (setSlot s i { s.slot i with next := h }) t (.pushCas i k tag h)
  -- 1772-1779, 1807-1814
  | .pushCas i k tag h =>
    if ok = true ∧ s.head = (tag, h) then
      setThr { s with head := (tag + 1, some i), stk := i :: s.stk, own := upd s.own i .free } t (contPc k)
    else setThr s t (.pushHead i k)
  -- 1663-1668; at the end 1596-1603
  | .scanFlags r j n =>
    if j < c.slots then
      if (s.slot j).alloc then setThr s t (.scanOwner r j n) else setThr s t (.scanFlags r (j + 1) n)
    else setThr s t (if 0 < n then .popHead r true else .idle)
  -- 1670-1679
  | .scanOwner r j n =>
    if (s.slot j).owner = 0 ∨ (s.slot j).owner ∉ s.dead then setThr s t (.scanFlags r (j + 1) n)
    else setThr s t (.scanCas r j n)
  -- 1683-1691
  | .scanCas r j n =>
    if (s.slot j).alloc then
      setThr (setSlot s j { s.slot j with alloc := false }) t (.scanRc r j n)
    else setThr s t (.scanFlags r (j + 1) n)
  -- 1693
  | .scanRc r j n => setThr { setSlot s j { s.slot j with rc := 0 } with own := upd s.own j (.held t) } t (.scanClear r j n)
  -- 1694
  | .scanClear r j n => setThr (setSlot s j { s.slot j with owner := 0 }) t (.scanGen r j n)
  -- 1695-1696
  | .scanGen r j n =>
    setThr (setSlot s j { s.slot j with gen := (s.slot j).gen + 1 }) t (.pushHead j (.scan r j n))

/-- One action. A thread calls an operation only when idle; threads of dead processes do nothing.
A store goes through data_slice_mut's checks (1312-1365): generation and bounds. -/
def step (c : Cfg) (s : St) : Act → St
  | .start t op => if s.thr t = .idle ∧ c.pid t ∉ s.dead then start s t op else s
  | .step t ok => if c.pid t ∈ s.dead then s else stepThr c s t ok
  | .write d x v =>
    if (s.slot d.slot).gen = d.gen ∧ d.offset + d.size ≤ c.size ∧ x < d.size then
      { s with mem := upd s.mem (d.offset + x) v }
    else s
  | .crash p => { s with dead := p :: s.dead }

/-- A schedule. Schedules over the functions of memory/tensor_pool.rs:705-1125, 1583-1816. -/
def run (c : Cfg) (s : St) (as : List Act) : St := as.foldl (step c) s

/-- Proper use of the interface, as the owning handle type enforces it (tensor_handle.rs): a reference
is released, duplicated or written through only by someone who holds it; try_retain is called with any
descriptor that was ever returned, stale or not. And: no slot of a dead process is reclaimed (which
happens only when the pool has run out of slots; what happens then is the subject of the witnesses in
Props). -/
def Proper (s : St) : Act → Prop
  | .start _ (.alloc _) => True
  | .start _ (.release d) => d ∈ s.refs
  | .start _ (.retain d) => d ∈ s.refs
  | .start _ (.tryRetain d) => d ∈ s.issued
  | .step t _ =>
    match s.thr t with
    | .scanOwner _ j _ => (s.slot j).owner = 0 ∨ (s.slot j).owner ∉ s.dead
    | _ => True
  | .write d _ _ => d ∈ s.refs
  | .crash _ => True

/-- Every action of the schedule is proper when it happens.
Ghost or helper of the model of memory/tensor_pool.rs:705-1125, 1583-1816. -/
def ProperRun (c : Cfg) : St → List Act → Prop
  | _, [] => True
  | s, a :: as => Proper s a ∧ ProperRun c (step c s a) as

instance (s : St) (a : Act) : Decidable (Proper s a) := by
  cases a with
  | start t op => cases op <;> (unfold Proper; infer_instance)
  | step t ok => unfold Proper; dsimp only; split <;> infer_instance
  | write d x v => unfold Proper; infer_instance
  | crash p => exact isTrue trivial

instance decProperRun (c : Cfg) : (s : St) → (as : List Act) → Decidable (ProperRun c s as)
  | _, [] => isTrue trivial
  | s, a :: as =>
    have := decProperRun c (step c s a) as
    show Decidable (Proper s a ∧ ProperRun c (step c s a) as) from inferInstance

end Horus.Pool
