import Verif.Common.Bytes
import Mathlib.Tactic.Common

/-!
Message definitions: the layout `horus msg gen` computes and asserts in every language, the layout
`horus topic echo` computes to print a message, and the text a layout hash is taken over.

Sources: horus_manager/src/msgspec/{mod,layout,canonical,emit_rust}.rs,
horus_manager/src/commands/msg.rs:2428-2547, horus_manager/src/commands/pod_decode.rs.

Simplifications. Strings are lists of characters. `usize` arithmetic of the generator is unbounded (a
type of 2^63 bytes is refused by rustc); the checked arithmetic of the decoder is modelled. Printed
numbers stay numbers: `to_string` and `fmt_float` are not modelled.
-/

namespace Horus.Msg

/-- A name or a piece of source text. -/
abbrev Str := List Char

/-- `Prim` (msgspec/mod.rs:84-97, pod_decode.rs:36-49). -/
inductive Prim
  | u8 | u16 | u32 | u64 | i8 | i16 | i32 | i64 | f32 | f64 | bool
  deriving DecidableEq, Repr

/-- `Prim::size_align`, both components (msgspec/mod.rs:151-158), and `Prim::width`
(pod_decode.rs:52-59). -/
def Prim.size : Prim → Nat
  | .u8 | .i8 | .bool => 1
  | .u16 | .i16 => 2
  | .u32 | .i32 | .f32 => 4
  | .u64 | .i64 | .f64 => 8

/-- `Prim::rust` (msgspec/mod.rs:116-130). -/
def Prim.rust : Prim → Str
  | .u8 => ['u', '8'] | .u16 => ['u', '1', '6'] | .u32 => ['u', '3', '2'] | .u64 => ['u', '6', '4']
  | .i8 => ['i', '8'] | .i16 => ['i', '1', '6'] | .i32 => ['i', '3', '2'] | .i64 => ['i', '6', '4']
  | .f32 => ['f', '3', '2'] | .f64 => ['f', '6', '4'] | .bool => ['b', 'o', 'o', 'l']

/-- `Prim::from_name` (msgspec/mod.rs:99-114) and `Prim::parse` (pod_decode.rs:61-76). -/
def Prim.fromName (s : Str) : Option Prim :=
  [Prim.u8, .u16, .u32, .u64, .i8, .i16, .i32, .i64, .f32, .f64, .bool].find? fun p => p.rust == s

/-- `Type` (msgspec/mod.rs:76-82) and `PodType` (pod_decode.rs:28-34). A reference is its short name;
the two path fields of `Resolved` are never filled in (parse.rs:494-501 leaves them empty and nothing
else writes them). -/
inductive Ty
  | prim (p : Prim)
  | arr (t : Ty) (n : Nat)
  | ref (name : Str)
  deriving DecidableEq, Repr

/-- `Field` (msgspec/mod.rs:67-74) without documentation and position. -/
structure Field where
  name : Str
  ty : Ty
  deriving DecidableEq, Repr

/-- `MsgDef` (msgspec/mod.rs:55-65) without documentation and position. -/
structure MsgDef where
  name : Str
  fields : List Field
  topic : Option Str := none
  deriving DecidableEq, Repr

/-! ### The generator's layout -/

/-- `round_up` (layout.rs:90-93); `x & !y` is `x - (x & y)`. -/
def roundUp (n a : Nat) : Nat := (n + a - 1) - ((n + a - 1) &&& (a - 1))

/-- Sizes and alignments already known (`Env`, layout.rs:16). -/
abbrev Env := Str → Option (Nat × Nat)

/-- `size_align` (layout.rs:42-51). The error is the name that could not be resolved. -/
def sizeAlign (env : Env) : Ty → Except Str (Nat × Nat)
  | .prim p => .ok (p.size, p.size)
  | .arr t n => do
    let (s, a) ← sizeAlign env t
    .ok (s * n, a)
  | .ref r =>
    match env r with
    | some x => .ok x
    | none => .error r

/-- `Layout` (layout.rs:54-64). A slot is (offset, size, alignment). -/
structure Layout where
  fields : List (Nat × Nat × Nat)
  size : Nat
  align : Nat
  padding : Nat
  deriving DecidableEq, Repr

/-- The loop of `compute` (layout.rs:75-82): slots, then cursor, alignment and bytes used. -/
def place (env : Env) (cursor align used : Nat) : List Field → Except Str (List (Nat × Nat × Nat) × Nat × Nat × Nat)
  | [] => .ok ([], cursor, align, used)
  | f :: fs => do
    let (s, a) ← sizeAlign env f.ty
    let off := roundUp cursor a
    let r ← place env (off + s) (max align a) (used + s) fs
    .ok ((off, s, a) :: r.1, r.2)

/-- `compute` (layout.rs:69-90). -/
def compute (env : Env) (m : MsgDef) : Except Str Layout := do
  let r ← place env 0 1 0 m.fields
  .ok ⟨r.1, roundUp r.2.1 r.2.2.1, r.2.2.1, roundUp r.2.1 r.2.2.1 - r.2.2.2⟩

/-- Names used by a type (`collect_refs`, emit_rust.rs:202-208). -/
def Ty.refs : Ty → List Str
  | .prim _ => []
  | .arr t _ => t.refs
  | .ref r => [r]

/-- The loop that fills the environment (msg.rs:2530-2547), with the layout of every message. -/
def layouts (env : Env) : List MsgDef → Except Str (List Layout)
  | [] => .ok []
  | m :: ms => do
    let l ← compute env m
    let ls ← layouts (fun r => if r = m.name then some (l.size, l.align) else env r) ms
    .ok (l :: ls)

/-- The checks of `generate_messages` and the layouts it asserts (msg.rs:2492-2547): no name twice, no
reference to a name not declared, then the layouts in order of declaration. -/
def generate (pkg : List MsgDef) : Except Str (List Layout) :=
  if ¬ (pkg.map (·.name)).Nodup then .error "twice".toList
  else if ¬ ∀ m ∈ pkg, ∀ f ∈ m.fields, ∀ r ∈ f.ty.refs, r ∈ pkg.map (·.name) then .error "unresolved".toList
  else layouts (fun _ => none) pkg

/-! ### Text -/

/-- `usize::to_string`. -/
def dec (n : Nat) : Str := Nat.toDigits 10 n

/-- `render_rust` (canonical.rs:20-26); the path of a reference is empty. -/
def renderRust : Ty → Str
  | .prim p => p.rust
  | .arr t n => '[' :: renderRust t ++ [';', ' '] ++ dec n ++ [']']
  | .ref _ => []

/-- `canonical_form` (canonical.rs:45-54). -/
def canonical (m : MsgDef) : Str :=
  m.name ++ m.fields.flatMap fun f => '|' :: f.name ++ ':' :: renderRust f.ty

/-- `str::trim`, for the blanks that occur in a declaration. -/
def trim (s : Str) : Str := ((s.dropWhile (· == ' ')).reverse.dropWhile (· == ' ')).reverse

/-- `str::parse::<usize>` without a sign. -/
def parseNat (s : Str) : Option Nat :=
  if s ≠ [] ∧ s.all Char.isDigit then
    let n := s.foldl (fun n c => n * 10 + (c.toNat - 48)) 0
    if n < 2 ^ 64 then some n else none
  else none

/-- `rsplit_once(';')` (pod_decode.rs:118): before and after the last semicolon. -/
def rsplit (s : Str) : Option (Str × Str) :=
  let r := s.reverse
  match r.dropWhile (· != ';') with
  | [] => none
  | _ :: before => some (before.reverse, (r.takeWhile (· != ';')).reverse)

/-- Is it a plain identifier beginning with a capital (pod_decode.rs:128-131)? -/
def isTypeName (s : Str) : Bool :=
  match s with
  | [] => false
  | c :: _ => c.isUpper && s.all fun c => c.isAlphanum || c == '_'

/-- `parse_type` (pod_decode.rs:115-135), with the nesting of brackets as fuel. -/
def parseType : Nat → Str → Option Ty
  | 0, _ => none
  | k + 1, decl =>
    let s := trim decl
    if s.head? = some '[' ∧ s.tail.getLast? = some ']' then do
      let (elem, count) ← rsplit s.tail.dropLast
      let n ← parseNat (trim count)
      let t ← parseType k elem
      some (.arr t n)
    else
      match Prim.fromName s with
      | some p => some (.prim p)
      | none => if isTypeName s then some (.ref s) else none

/-- `parse_type` of a declaration: the brackets cannot be deeper than the text is long. -/
def typeOf (decl : Str) : Option Ty := parseType (decl.length + 1) decl

/-! ### The printer of `horus topic echo` -/

/-- The field layouts found in the sources (`Registry`, pod_decode.rs:148): names and declared types. -/
abbrev Registry := Str → Option (List (Str × Str))

/-- Checked addition and multiplication on `usize`. -/
def checked (n : Nat) : Option Nat := if n < 2 ^ 64 then some n else none

/-- `round_up` (pod_decode.rs:190-200). -/
def roundUpC (v a : Nat) : Option Nat :=
  if a = 0 then none
  else if v % a = 0 then some v
  else checked (v + (a - v % a))

/-- The loop of `struct_layout` (pod_decode.rs:174-183). -/
def structLoop (lay : Ty → Option (Nat × Nat)) (offset align : Nat) : List (Str × Str) → Option (Nat × Nat)
  | [] => some (offset, align)
  | f :: fs => do
    let ty ← typeOf f.2
    let (s, a) ← lay ty
    let o ← roundUpC offset a
    let e ← checked (o + s)
    structLoop lay e (max align a) fs

/-- `struct_layout` (pod_decode.rs:170-188), given the layouts of the field types. -/
def structLayout (reg : Registry) (lay : Ty → Option (Nat × Nat)) (name : Str) : Option (Nat × Nat) := do
  let fields ← reg name
  let (e, a) ← structLoop lay 0 1 fields
  let s ← roundUpC e a
  some (s, a)

/-- `layout_of` (pod_decode.rs:150-168); the fuel is `MAX_DEPTH + 1 - depth`. -/
def layoutOf (reg : Registry) : Nat → Ty → Option (Nat × Nat)
  | 0, _ => none
  | _ + 1, .prim p => some (p.size, p.size)
  | k + 1, .arr t n => do
    let (s, a) ← layoutOf reg k t
    let sz ← checked (s * n)
    some (sz, a)
  | k + 1, .ref r => structLayout reg (layoutOf reg k) r

/-- What is printed: a number, a quoted string, the first elements of an array and how many are left
out, or the fields of a struct. -/
inductive Shown
  | num (p : Prim) (n : Nat)
  | text (bs : Bytes)
  | list (xs : List Shown) (more : Nat)
  | record (fs : List (Str × Shown))

/-- `as_fixed_string` (pod_decode.rs:237-252). -/
def fixedString (bs : Bytes) : Option Bytes :=
  let text := bs.takeWhile (· != 0)
  let rest := bs.dropWhile (· != 0)
  if text = [] then some []
  else if ¬ text.all (fun b => 0x20 ≤ b.toNat && b.toNat < 0x7f) then none
  else if ¬ rest.all (· == 0) then none
  else some text

/-- `data.get(off..)`. -/
def getFrom (data : Bytes) (off : Nat) : Option Bytes := if off ≤ data.length then some (data.drop off) else none

/-- `render` of the first elements of an array (pod_decode.rs:220-223), from element `i` on. -/
def renderElems (rend : Bytes → Option Shown) (size : Nat) (data : Bytes) (i : Nat) : Nat → Option (List Shown)
  | 0 => some []
  | k + 1 => do
    let off ← checked (i * size)
    let d ← getFrom data off
    let x ← rend d
    let xs ← renderElems rend size data (i + 1) k
    some (x :: xs)

/-- The loop of `render_struct` (pod_decode.rs:258-265). -/
def renderFields (lay : Ty → Option (Nat × Nat)) (rend : Ty → Bytes → Option Shown) (data : Bytes) (offset : Nat) :
    List (Str × Str) → Option (List (Str × Shown))
  | [] => some []
  | f :: fs => do
    let ty ← typeOf f.2
    let (s, a) ← lay ty
    let o ← roundUpC offset a
    let d ← getFrom data o
    let v ← rend ty d
    let e ← checked (o + s)
    let vs ← renderFields lay rend data e fs
    some ((f.1, v) :: vs)

/-- `render` (pod_decode.rs:203-234), same fuel as `layoutOf`. -/
def render (reg : Registry) : Nat → Ty → Bytes → Option Shown
  | 0, _, _ => none
  | _ + 1, .prim p, data => if data.length < p.size then none else some (.num p (leNat (data.take p.size)))
  | k + 1, .arr t n, data =>
    match (if t = .prim .u8 then fixedString (data.take n) else none) with
    | some text => some (.text text)
    | none => do
      let (s, _) ← layoutOf reg k t
      let xs ← renderElems (render reg k t) s data 0 (min n 8)
      some (.list xs (n - min n 8))
  | k + 1, .ref r, data => do
    let fields ← reg r
    let fs ← renderFields (layoutOf reg k) (render reg k) data 0 fields
    some (.record fs)

/-- `decode` (pod_decode.rs:273-279); `none` is the hex dump. -/
def decode (reg : Registry) (name : Str) (data : Bytes) : Option Shown := do
  let (s, _) ← structLayout reg (layoutOf reg 9) name
  if s ≠ data.length then none
  else do
    let fields ← reg name
    let fs ← renderFields (layoutOf reg 9) (render reg 9) data 0 fields
    some (.record fs)

/-- The fields `horus msg` finds in a Rust struct (msg.rs:631-692): those whose name does not begin with
an underscore. -/
def scraped (fields : List (Str × Str)) : List (Str × Str) := fields.filter fun f => f.1.head? != some '_'

end Horus.Msg
