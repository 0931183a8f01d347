/-! How a message struct lies in memory: the layout rule that Rust's `#[repr(C)]` and C++ share, and what
one side reads of what the other wrote. -/

namespace Horus.FfiLayout

/-- The scalar types the message structs use (/repo/horus_cpp/include/horus/msg/*.hpp and
/repo/horus_types/src/*.rs). `uint8_t` and Rust's `u8` are one kind, and so on. -/
inductive Prim where
  | u8 | i8 | boolean | u16 | i16 | u32 | i32 | f32 | u64 | i64 | f64
deriving DecidableEq, Repr

/-- The size in bytes of a scalar, which is also its alignment on the 64-bit targets the project builds
for. -/
def Prim.size : Prim → Nat
  | .u8 | .i8 | .boolean => 1
  | .u16 | .i16 => 2
  | .u32 | .i32 | .f32 => 4
  | .u64 | .i64 | .f64 => 8

/-- The element type of a field: a scalar or another message struct. -/
inductive Elem where
  | prim (p : Prim)
  | named (s : String)
deriving DecidableEq, Repr

/-- A field: its name, element type and array dimensions (empty for a plain field). -/
structure Fld where
  name : String
  elem : Elem
  dims : List Nat
deriving DecidableEq, Repr

/-- A struct declaration; `packed` is `#[repr(C, packed)]` (/repo/horus_cpp/include/horus/msg/detection.hpp:74-91). -/
structure Decl where
  name : String
  packed : Bool
  fields : List Fld
deriving DecidableEq, Repr

/-- One entry of the contract: the size and the named field offsets Rust computed
(/repo/horus_cpp/src/layout_contract.rs:128-162). -/
structure Entry where
  name : String
  size : Nat
  offsets : List (String × Nat)
deriving DecidableEq, Repr

/-- Round `n` up to a multiple of `a`. -/
def up (n a : Nat) : Nat := (n + (a - 1)) / a * a

/-- A field for layout purposes: its name, size and alignment. -/
structure Slot where
  name : String
  size : Nat
  align : Nat
deriving DecidableEq, Repr

/-- A field placed at an offset. -/
structure Placed where
  name : String
  off : Nat
  size : Nat
deriving DecidableEq, Repr

/-- The C layout rule: each field at the next offset that suits its alignment. -/
def place : Nat → List Slot → List Placed
  | _, [] => []
  | cur, s :: r => ⟨s.name, up cur s.align, s.size⟩ :: place (up cur s.align + s.size) r

/-- Where the last field ends. -/
def endOf : Nat → List Slot → Nat
  | cur, [] => cur
  | cur, s :: r => endOf (up cur s.align + s.size) r

/-- The alignment of a struct: the largest of its fields'. -/
def alignOf (ss : List Slot) : Nat := ss.foldl (fun a s => max a s.align) 1

/-- `sizeof`: the end of the last field rounded up to the alignment. -/
def sizeOfSlots (ss : List Slot) : Nat := up (endOf 0 ss) (alignOf ss)

/-- A struct as measured: its slots, from which size, alignment and offsets follow. -/
abbrev Env := List (String × List Slot)

/-- Size and alignment of an element type. -/
def measure (env : Env) : Elem → Option (Nat × Nat)
  | .prim p => some (p.size, p.size)
  | .named s => (env.lookup s).map (fun ss => (sizeOfSlots ss, alignOf ss))

/-- The slot of a field: an array is its elements side by side; a packed struct ignores alignment. -/
def slot (env : Env) (packed : Bool) (f : Fld) : Option Slot :=
  (measure env f.elem).map (fun m =>
    ⟨f.name, f.dims.foldl (fun a d => a * d) m.1, if packed then 1 else m.2⟩)

/-- Measure the declarations in order; each may use the ones before it. -/
def measureAll (env : Env) : List Decl → Option Env
  | [] => some env
  | d :: r => (d.fields.mapM (slot env d.packed)).bind (fun ss => measureAll ((d.name, ss) :: env) r)

/-- The slots of the struct called `n` among the declarations `ds`. -/
def slotsOf (ds : List Decl) (n : String) : Option (List Slot) := (measureAll [] ds).bind (·.lookup n)

/-- What `static_assert(sizeof(T) == …)` and the `offsetof` assertions of an entry check of a C++ struct
(/repo/horus_cpp/src/layout_contract.rs:128-162). A field that does not exist fails to compile. -/
def meets (ss : List Slot) (e : Entry) : Bool :=
  sizeOfSlots ss == e.size && e.offsets.all (fun o => (place 0 ss).any (fun p => p.name == o.1 && p.off == o.2))

/-- The entry the generator renders for a Rust struct and a transcribed list of its fields; a transcribed
field that does not exist does not compile (/repo/horus_cpp/src/layout_contract.rs:50-162). -/
def render (n : String) (rust : List Slot) (listed : List String) : Option Entry :=
  (listed.mapM (fun f => ((place 0 rust).find? (fun p => p.name == f)).map (fun p => (f, p.off)))).map
    (fun os => ⟨n, sizeOfSlots rust, os⟩)

/-- Memory, one byte per address. -/
abbrev Mem := Nat → Nat

/-- Store bytes from address `a` on. -/
def store (m : Mem) (a : Nat) (bs : List Nat) : Mem := fun x =>
  if a ≤ x ∧ x < a + bs.length then bs.getD (x - a) 0 else m x

/-- Load `n` bytes from address `a`. -/
def load (m : Mem) (a n : Nat) : List Nat := (List.range n).map (fun i => m (a + i))

/-- A program assigning each field of an object at `base` the bytes of its value, in order. -/
def assign (m : Mem) (base : Nat) : List Placed → List (List Nat) → Mem
  | p :: ps, v :: vs => assign (store m (base + p.off) v) base ps vs
  | _, _ => m

/-- `std::ptr::read` and `std::ptr::write` of a Rust type of `n` bytes between the caller's object and the
ring: `n` bytes are copied. Models /repo/horus_cpp/src/c_api.rs:544-552, 574-588. -/
def copyBytes (m : Mem) (src dst n : Nat) : Mem := store m dst (load m src n)

end Horus.FfiLayout
