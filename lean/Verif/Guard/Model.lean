import Verif.Common.Bytes
import Verif.Common.Map
import Verif.Discovery.Model
/-
Model of horus_net/src/guard.rs (topic patterns, import/export guard), the role bookkeeping of
horus_net/src/registry.rs and `ImportConfig::parse` of horus_net/src/config.rs.

Strings are byte lists. For valid UTF-8 this changes nothing: `*` is the single byte 42, which
never occurs inside a multi-byte character, and `str::find`, `starts_with`, `ends_with` and `==`
are byte-wise.
-/
namespace Horus.Guard
open Horus.Discovery (Role)

/-- The byte `*`. Source: guard.rs, registry.rs, config.rs. -/
abbrev star : UInt8 := 42

/-- `pattern.split('*')` (guard.rs:159): pieces between stars, one more than there are stars. -/
def splitStar : Bytes → List Bytes
  | [] => [[]]
  | c :: cs =>
    if c = star then [] :: splitStar cs
    else match splitStar cs with
      | [] => [[c]]
      | p :: ps => (c :: p) :: ps

/-- `str::find(part)` (guard.rs:188): byte offset of the leftmost occurrence. -/
def findSub (p : Bytes) : Bytes → Option Nat
  | [] => if p = [] then some 0 else none
  | c :: cs => if p.isPrefixOf (c :: cs) then some 0 else (findSub p cs).map (· + 1)

/-- guard.rs:170-195, the loop `for (i, part) in parts.iter().enumerate()`; `n = parts.len()`,
`rem` is `remaining`. -/
def globLoop (n : Nat) : Nat → List Bytes → Bytes → Bool
  | _, [], _ => true
  | i, p :: ps, rem =>
    if p = [] then globLoop n (i + 1) ps rem
    else if i = 0 then
      if p.isPrefixOf rem then globLoop n (i + 1) ps (rem.drop p.length) else false
    else if i = n - 1 then
      if p.isSuffixOf rem then globLoop n (i + 1) ps rem else false
    else
      match findSub p rem with
      | some pos => globLoop n (i + 1) ps (rem.drop (pos + p.length))
      | none => false

/-- guard.rs:150-196 `glob_match` (and 146-148 `glob_match_topic`). -/
def globMatch (topic pattern : Bytes) : Bool :=
  if pattern = [star] then true
  else if star ∉ pattern then decide (topic = pattern)
  else
    match splitStar pattern with
    | [pre, suf] =>
      pre.isPrefixOf topic && suf.isSuffixOf topic && decide (pre.length + suf.length ≤ topic.length)
    | parts => globLoop parts.length 0 parts topic

/-- guard.rs:198-200 `glob_match_any`. -/
def globMatchAny (topic : Bytes) (patterns : List Bytes) : Bool :=
  patterns.any fun p => globMatch topic p

/-- `"_horus.presence"` (registry.rs:101). -/
def SYS_PRESENCE : Bytes := [95,104,111,114,117,115,46,112,114,101,115,101,110,99,101]
/-- `"_horus.logs"` (registry.rs:102). -/
def SYS_LOGS : Bytes := [95,104,111,114,117,115,46,108,111,103,115]
/-- `"_horus.estop"` (registry.rs:103). -/
def SYS_ESTOP : Bytes := [95,104,111,114,117,115,46,101,115,116,111,112]

/-- registry.rs:117-119 `is_system_topic`. -/
def isSystemTopic (name : Bytes) : Bool :=
  decide (name = SYS_PRESENCE) || decide (name = SYS_LOGS) || decide (name = SYS_ESTOP)

/-- guard.rs:13-25 `ImportMode`. -/
inductive ImportMode
  | auto
  | deny
  | allowList (patterns : List Bytes)
deriving DecidableEq

/-- guard.rs:28-36 `ExportMode`. -/
inductive ExportMode
  | all
  | allowList (patterns : List Bytes)
  | denyList (patterns : List Bytes)
deriving DecidableEq

/-- registry.rs:128-134: the registry, of which only the role per topic name is kept here (type
hash, size and the change callback do not influence the guard). -/
abbrev Registry := Map Bytes Role

/-- registry.rs:145-171 `register`: merges the role into an existing entry. -/
def register (r : Registry) (name : Bytes) (role : Role) : Registry :=
  match Map.get r name with
  | some old => Map.set r name (old.merge role)
  | none => Map.set r name role

/-- registry.rs:174-192 `unregister`: removes the role, and the entry when none remains. -/
def unregister (r : Registry) (name : Bytes) (role : Role) : Registry :=
  match Map.get r name with
  | some old =>
    match old.remove role with
    | some new => Map.set r name new
    | none => Map.del r name
  | none => r

/-- registry.rs:206-213 `has_subscribers`. -/
def hasSubscribers (r : Registry) (name : Bytes) : Bool :=
  match Map.get r name with
  | some .subscriber | some .both => true
  | _ => false

/-- registry.rs:216-223 `has_publishers`. -/
def hasPublishers (r : Registry) (name : Bytes) : Bool :=
  match Map.get r name with
  | some .publisher | some .both => true
  | _ => false

/-- guard.rs:69-107 `allow_import`; `reg` is `self.registry` (`None` = no registry). -/
def allowImport (mode : ImportMode) (reg : Option Registry) (topic : Bytes) : Bool :=
  if isSystemTopic topic then true
  else match mode with
    | .deny => false
    | .auto =>
      match reg with
      | some r =>
        match Map.get r topic with
        | some .subscriber => true
        | some .publisher => false
        | some .both => false
        | none => false
      | none => false
    | .allowList ps => globMatchAny topic ps

/-- guard.rs:110-134 `allow_export`. -/
def allowExport (mode : ExportMode) (topic : Bytes) : Bool :=
  if isSystemTopic topic then
    match mode with
    | .all => true
    | .allowList ps => globMatchAny topic ps
    | .denyList ps => !globMatchAny topic ps
  else
    match mode with
    | .all => true
    | .allowList ps => globMatchAny topic ps
    | .denyList ps => !globMatchAny topic ps

/-- `str::split(',')`. Library function or literal as used by guard.rs, registry.rs, config.rs. -/
def splitComma : Bytes → List Bytes
  | [] => [[]]
  | c :: cs =>
    if c = 44 then [] :: splitComma cs
    else match splitComma cs with
      | [] => [[c]]
      | p :: ps => (c :: p) :: ps

/-- `"auto"`. Library function or literal as used by guard.rs, registry.rs, config.rs. -/
def kwAuto : Bytes := [97,117,116,111]
/-- `"deny"`, `"none"`, `"off"`, `"false"`. Library function or literal as used by guard.rs, registry.rs, config.rs. -/
def kwDeny : List Bytes :=
  [[100,101,110,121], [110,111,110,101], [111,102,102], [102,97,108,115,101]]

/-- config.rs:95-119 `ImportConfig::parse` (its three variants are converted one to one into
`ImportMode` by the replicator). `trim` and `lower` are `str::trim` and `str::to_lowercase`. -/
def parseImport (trim lower : Bytes → Bytes) (raw : Bytes) : ImportMode :=
  let trimmed := trim raw
  if trimmed = [] then .auto
  else if lower trimmed = kwAuto then .auto
  else if lower trimmed ∈ kwDeny then .deny
  else
    let patterns := ((splitComma trimmed).map trim).filter fun s => s ≠ []
    if patterns = [] then .deny else .allowList patterns

/-- config.rs:88-93 `ImportConfig::from_env`: unset means Auto. -/
def importFromEnv (trim lower : Bytes → Bytes) : Option Bytes → ImportMode
  | none => .auto
  | some raw => parseImport trim lower raw

/-- One registry operation as reported by the topic lifecycle.
Schedules over the functions of guard.rs, registry.rs, config.rs. -/
inductive RegOp
  | reg (name : Bytes) (role : Role)
  | unreg (name : Bytes) (role : Role)

/-- registry.rs: one operation on the registry. -/
def RegOp.apply (r : Registry) : RegOp → Registry
  | .reg n ro => register r n ro
  | .unreg n ro => unregister r n ro

/-- The registry after a history of operations, starting empty.
Schedules over the functions of guard.rs, registry.rs, config.rs. -/
def runReg (ops : List RegOp) : Registry := ops.foldl RegOp.apply []

end Horus.Guard
