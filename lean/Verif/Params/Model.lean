import Verif.Common.Map
import Verif.Ring.Common
/-
Runtime parameters: horus_core/src/params.rs.

Modelled: the value validation, the three start-up layers, and the parameter store with concurrent
users, one step per lock acquisition (params.rs `RwLock`s `params`, `versions`, `change_callbacks`).
Keys are numbers in the store, character lists in the layering. Numbers are integers ordered as the
doubles are; a bound that is not a number is `none`. Regular expressions are an arbitrary predicate.
Simplified: lock poisoning (a panic while holding a lock) and the audit log file are left out.
-/
namespace Horus.Params
open Horus Horus.Ring

/-- `serde_json::Value` (as used by params.rs 443-569). A JSON number is never NaN. -/
inductive Val where
  | null
  | bool (b : Bool)
  | num (n : Int)
  | str (s : List Char)
  | arr (len : Nat)
  | obj (keys : List Nat)
  deriving DecidableEq, Repr

/-- `ValidationRule` (params.rs 15-32). A bound `none` is a NaN bound; `regex` carries the pattern's
compilation result: `none` if it does not compile. -/
inductive Rule where
  | minValue (m : Option Int)
  | maxValue (m : Option Int)
  | range (lo hi : Option Int)
  | regex (p : Option (List Char → Bool))
  | enum (allowed : List (List Char))
  | minLength (n : Nat)
  | maxLength (n : Nat)
  | requiredKeys (ks : List Nat)

/-- `Value::as_f64`. -/
def Val.asNum : Val → Option Int
  | .num n => some n
  | _ => none

/-- `Value::as_str`. Library function or literal as used by params.rs. -/
def Val.asStr : Val → Option (List Char)
  | .str s => some s
  | _ => none

/-- `num < bound` on doubles: false when the bound is NaN. Source: params.rs. -/
def ltBound (n : Int) : Option Int → Bool
  | some m => n < m
  | none => false

/-- `num > bound` on doubles: false when the bound is NaN. Source: params.rs. -/
def gtBound (n : Int) : Option Int → Bool
  | some m => m < n
  | none => false

/-- UTF-8 length of a string: `str::len` counts bytes. Library function or literal as used by params.rs. -/
def utf8Len (s : List Char) : Nat := (s.map fun c => c.utf8Size).sum

/-- The length the length rules look at (params.rs 523-529 and 538-544): bytes of a string, elements
of an array, 0 of anything else. -/
def Val.len : Val → Nat
  | .str s => utf8Len s
  | .arr n => n
  | _ => 0

/-- One rule of `validate_value` (params.rs 449-566). -/
def check (r : Rule) (v : Val) : Bool :=
  match r with
  | .minValue m => match v.asNum with
    | none => false
    | some n => !ltBound n m
  | .maxValue m => match v.asNum with
    | none => false
    | some n => !gtBound n m
  | .range lo hi => match v.asNum with
    | none => false
    | some n => !(ltBound n lo || gtBound n hi)
  | .regex p => match v.asStr with
    | none => false
    | some s => match p with
      | none => false
      | some f => f s
  | .enum allowed => match v.asStr with
    | none => false
    | some s => decide (s ∈ allowed)
  | .minLength n => !decide (v.len < n)
  | .maxLength n => !decide (n < v.len)
  | .requiredKeys ks => match v with
    | .obj have_ => ks.all fun k => decide (k ∈ have_)
    | _ => true

/-- `validate_value` (params.rs 443-569): the first failing rule rejects. -/
def validate : List Rule → Val → Bool
  | [], _ => true
  | r :: rs, v => if check r v then validate rs v else false

/-- `ParamMetadata` (params.rs 35-45), the parts that matter. -/
structure Meta where
  rules : List Rule
  readOnly : Bool

/-! ### The store -/

/-- Where a thread is inside `set` (params.rs 260-309), `set_with_version` (362-407), `reset`
(338-344). -/
inductive Pc where
  | idle
  /-- in `set`, metadata passed: about to read the old value -/
  | old (k : Nat) (v : Val)
  /-- in `set`, old value read: about to run the callbacks -/
  | calls (k : Nat) (v : Val) (o : Option Val)
  /-- in `set`, the `cbs` callbacks registered so far passed: about to write the value -/
  | write (k : Nat) (v : Val) (o : Option Val) (cbs : Nat)
  /-- in `set`, value written: about to bump the version -/
  | bump (k : Nat)
  /-- in `set_with_version`, metadata passed: about to lock the versions -/
  | vlock (k : Nat) (v : Val) (e : Nat)
  /-- in `set_with_version`, holding the versions lock and the version matched -/
  | vwrite (k : Nat) (v : Val) (e : Nat)
  /-- in `set_with_version`, holding the versions lock, value written -/
  | vbump (k : Nat)
  deriving DecidableEq, Repr

/-- How a value got into the store (ghost). Ghost or helper of the model of params.rs. -/
inductive How where
  | set (old : Option Val) (cbs : Nat)
  | versioned (expected : Nat)
  deriving DecidableEq, Repr

/-- `RuntimeParams` (params.rs 76-89). `cbs` is how many callbacks are registered; callback `i`
decides by `Env.cb i`. `vlocked` is the thread holding the versions write lock. `log` is a ghost list
of the values written by `set` and `set_with_version`, newest last; `done` of the keys of the
completed ones. -/
structure St where
  params : Map Nat Val
  versions : Map Nat Nat := []
  cbs : Nat := 0
  vlocked : Option Nat := none
  pc : Nat → Pc := fun _ => .idle
  log : List (Nat × Val × How) := []
  done : List Nat := []

/-- What does not change while the store runs: the metadata and what the callbacks answer. No public
function writes the metadata map (params.rs 80: it is created empty and only tests insert into it). -/
structure Env where
  md : Nat → Option Meta
  cb : Nat → Nat → Option Val → Val → Bool

/-- The metadata part of `set` and `set_with_version` (params.rs 264-274, 371-380). -/
def admits (env : Env) (k : Nat) (v : Val) : Bool :=
  match env.md k with
  | none => true
  | some m => if m.readOnly then false else validate m.rules v

/-- All registered callbacks accept (params.rs 283-292). -/
def accepted (env : Env) (n k : Nat) (o : Option Val) (v : Val) : Bool :=
  (List.range n).all fun i => env.cb i k o v

/-- `get_version` (params.rs 352-358). -/
def version (s : St) (k : Nat) : Nat := (Map.get s.versions k).getD 0

/-- Steps of the users of one store. Schedules over the functions of params.rs. -/
inductive Act where
  /-- call `set(k, v)` -/
  | set (t k : Nat) (v : Val)
  /-- call `set_with_version(k, v, e)` -/
  | setv (t k : Nat) (v : Val) (e : Nat)
  /-- the thread's next lock acquisition -/
  | go (t : Nat)
  /-- `remove(k)` (params.rs 333-335): one acquisition -/
  | remove (k : Nat)
  /-- `load_from_disk` (params.rs 588-597): one acquisition replaces the whole map -/
  | load (m : Map Nat Val)
  /-- the `clear` of `reset` (params.rs 339-341); its `set`s are further `set` actions -/
  | clear
  /-- `on_change` (params.rs 206-210): needs the callbacks write lock -/
  | register
  deriving DecidableEq, Repr

/-- One step. A call that is refused, or whose lock is taken, leaves the state as it is except for
the thread's position. Schedules over the functions of params.rs. -/
def step (env : Env) (s : St) : Act → St
  | .set t k v =>
    if s.pc t = .idle then
      if admits env k v then { s with pc := upd s.pc t (.old k v) } else s
    else s
  | .setv t k v e =>
    if s.pc t = .idle then
      if admits env k v then { s with pc := upd s.pc t (.vlock k v e) } else s
    else s
  | .go t =>
    match s.pc t with
    | .idle => s
    | .old k v => { s with pc := upd s.pc t (.calls k v (Map.get s.params k)) }
    | .calls k v o =>
      if accepted env s.cbs k o v then { s with pc := upd s.pc t (.write k v o s.cbs) }
      else { s with pc := upd s.pc t .idle }
    | .write k v o n =>
      { s with params := Map.set s.params k v, pc := upd s.pc t (.bump k), log := s.log ++ [(k, v, .set o n)] }
    | .bump k =>
      if s.vlocked = none then
        { s with versions := Map.set s.versions k (version s k + 1), pc := upd s.pc t .idle, done := s.done ++ [k] }
      else s
    | .vlock k v e =>
      if s.vlocked = none then
        if version s k = e then { s with vlocked := some t, pc := upd s.pc t (.vwrite k v e) }
        else { s with pc := upd s.pc t .idle }
      else s
    | .vwrite k v e =>
      { s with params := Map.set s.params k v, pc := upd s.pc t (.vbump k), log := s.log ++ [(k, v, .versioned e)] }
    | .vbump k =>
      { s with versions := Map.set s.versions k (version s k + 1), vlocked := none, pc := upd s.pc t .idle, done := s.done ++ [k] }
  | .remove k => { s with params := Map.del s.params k }
  | .load m => { s with params := m }
  | .clear => { s with params := [] }
  | .register => { s with cbs := s.cbs + 1 }

/-- A history. Schedules over the functions of params.rs. -/
def run (env : Env) (s : St) (as : List Act) : St := as.foldl (step env) s

/-- A store just opened with some values (params.rs 190-196). -/
def opened (m : Map Nat Val) : St := { params := m }

/-! ### Sequential calls -/

/-- `set` with nobody else using the store (params.rs 260-309); `false` is an error. -/
def setNow (env : Env) (k : Nat) (v : Val) (s : St) : St × Bool :=
  if admits env k v then
    if accepted env s.cbs k (Map.get s.params k) v then
      ({ s with params := Map.set s.params k v, versions := Map.set s.versions k (version s k + 1) }, true)
    else (s, false)
  else (s, false)

/-- `set_defaults` (params.rs 213-218): stops at the first refused one. -/
def setAll (env : Env) : List (Nat × Val) → St → St × Bool
  | [], s => (s, true)
  | (k, v) :: ds, s => match setNow env k v s with
    | (s', true) => setAll env ds s'
    | (s', false) => (s', false)

/-- `reset` (params.rs 338-344). -/
def reset (env : Env) (defaults : List (Nat × Val)) (s : St) : St × Bool :=
  setAll env defaults { s with params := [] }

/-! ### Start-up layers -/

/-- ASCII lower case of a character (`to_lowercase`, params.rs 184, on ASCII names). -/
def lower (c : Char) : Char := if 65 ≤ c.toNat ∧ c.toNat ≤ 90 then Char.ofNat (c.toNat + 32) else c

/-- ASCII upper case of a character (`to_uppercase`). Source: params.rs. -/
def upper (c : Char) : Char := if 97 ≤ c.toNat ∧ c.toNat ≤ 122 then Char.ofNat (c.toNat - 32) else c

/-- `"HORUS_PARAM_"`. Library function or literal as used by params.rs. -/
def envPrefix : List Char := ['H', 'O', 'R', 'U', 'S', '_', 'P', 'A', 'R', 'A', 'M', '_']

/-- `strip_prefix`. Library function or literal as used by params.rs. -/
def stripPrefix (p : List Char) (s : List Char) : Option (List Char) :=
  if p.isPrefixOf s then some (s.drop p.length) else none

/-- The environment layer (params.rs 181-188): each variable with the prefix sets its parameter, in
the order the environment lists them. `pv` is `parse_env_value`. -/
def envLayer {α : Type} (pv : List Char → α) (m : Map (List Char) α) : List (List Char × List Char) → Map (List Char) α
  | [] => m
  | (k, v) :: rest => match stripPrefix envPrefix k with
    | some name => envLayer pv (Map.set m (name.map lower) (pv v)) rest
    | none => envLayer pv m rest

/-- The file layer (params.rs 174-176). -/
def fileLayer {α : Type} (m : Map (List Char) α) : List (List Char × α) → Map (List Char) α
  | [] => m
  | (k, v) :: rest => fileLayer (Map.set m k v) rest

/-- The state of `.horus/config/params.yaml` (params.rs 147-173). -/
inductive File (α : Type) where
  | absent
  | unreadable
  | malformed
  | blank
  | good (kvs : List (List Char × α))

/-- `RuntimeParams::new` (params.rs 122-197): `none` is an error. -/
def new {α : Type} (pv : List Char → α) (defaults : Map (List Char) α) (f : File α)
    (env : List (List Char × List Char)) : Option (Map (List Char) α) :=
  match f with
  | .absent => some (envLayer pv defaults env)
  | .unreadable => none
  | .malformed => none
  | .blank => some (envLayer pv (fileLayer defaults []) env)
  | .good kvs => some (envLayer pv (fileLayer defaults kvs) env)

/-- `RuntimeParams::default` (params.rs 619-642): an error falls back to the built-in values. -/
def default {α : Type} (pv : List Char → α) (defaults : Map (List Char) α) (f : File α)
    (env : List (List Char × List Char)) : Map (List Char) α :=
  (new pv defaults f env).getD defaults

/-- The variable a launch file's parameter becomes (horus_manager/src/commands/launch.rs 1173):
`HORUS_PARAM_` + upper case with `-` turned to `_`. -/
def launchVar (k : List Char) : List Char :=
  envPrefix ++ (k.map upper).map fun c => if c = '-' then '_' else c

end Horus.Params
