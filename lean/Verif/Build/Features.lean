import Mathlib.Tactic.Common
import Mathlib.Data.List.Basic
import Mathlib.Data.List.Nodup

/-!
Which Cargo features `horus run` switches on.

Specification: the features are those of the drivers and capabilities the user asked for, each once; a setting in
the environment replaces the one in horus.toml; a driver the user disabled is not switched on; a group name stands
for its members.

Source: /repo/horus_manager/src/commands/run/features.rs:14-25, 112-348.

Simplifications: the registry is a function from names to features (`query_driver_features`); letters are ASCII;
`[drivers]` is the list of its entries in key order.
-/

namespace Horus.Features

abbrev Str := List Char

/-- `resolve_driver_alias` (features.rs:16-25). -/
def groupOf (s : Str) : Option (List Str) :=
  if s = "vision".toList then some ["camera".toList, "depth-camera".toList]
  else if s = "navigation".toList then some ["lidar".toList, "gps".toList, "imu".toList]
  else if s = "manipulation".toList then some ["servo".toList, "motor".toList, "force-torque".toList]
  else if s = "locomotion".toList then some ["motor".toList, "encoder".toList, "imu".toList]
  else if s = "sensing".toList then some ["camera".toList, "lidar".toList, "ultrasonic".toList, "imu".toList]
  else none

/-- `DriverValue` (/repo/horus_manager/src/manifest.rs:822-829, 860-876): a table with its four source keys, a
backend name, or a switch. -/
inductive Val
  | config (use terra package node : Option Str)
  | backend (s : Str)
  | enabled (b : Bool)
  deriving DecidableEq, Repr

/-- `DriverConfig` (features.rs:114-119). -/
structure Cfg where
  drivers : List Str := []
  backends : List (Str × Str) := []
  deriving DecidableEq, Repr

/-- A group name or a single driver (features.rs:140-146, 151-157). -/
def expand (name : Str) : List Str := match groupOf name with | some l => l | none => [name]

/-- One entry of `from_manifest` (features.rs:125-163). -/
def entry (c : Cfg) (e : Str × Val) : Cfg :=
  match e.2 with
  | .config _ terra package node =>
    { drivers := c.drivers ++ [e.1], backends := match terra.or (package.or node) with | some b => c.backends ++ [(e.1, b)] | none => c.backends }
  | .backend b => { drivers := c.drivers ++ expand e.1, backends := c.backends ++ [(e.1, b)] }
  | .enabled true => { c with drivers := c.drivers ++ expand e.1 }
  | .enabled false => c

/-- `from_manifest` (features.rs:123-165). -/
def fromManifest (m : List (Str × Val)) : Cfg := m.foldl entry {}

/-- A comma-separated variable, trimmed, without empty parts (features.rs:172-176, 303-307). -/
def splitVar (s : Str) : List Str :=
  ((s.splitOn ',').map fun p => ((p.dropWhile (· == ' ')).reverse.dropWhile (· == ' ')).reverse).filter fun p => !p.isEmpty

/-- `get_active_drivers` (features.rs:169-190). -/
def activeDrivers (env : Option Str) (m : Option (List (Str × Val))) : Cfg :=
  match env with
  | some s => if splitVar s ≠ [] then { drivers := splitVar s } else (m.map fromManifest).getD {}
  | none => (m.map fromManifest).getD {}

/-- `get_active_enable` (features.rs:300-320). -/
def activeEnable (env : Option Str) (m : Option (List Str)) : List Str :=
  match env with
  | some s => if splitVar s ≠ [] then splitVar s else m.getD []
  | none => m.getD []

/-- Adding what is not there yet (features.rs:215-219, 289-293, 330-341). -/
def addAll (acc fs : List Str) : List Str := fs.foldl (fun a f => if a.contains f then a else a ++ [f]) acc

/-- The name looked up for a driver (features.rs:204-211). -/
def lookupName (c : Cfg) (d : Str) : Str :=
  match c.backends.lookup d with
  | some b => d ++ '-' :: b
  | none => d

/-- `get_cargo_features_from_drivers` (features.rs:197-224). -/
def driverFeatures (reg : Str → Option (List Str)) (c : Cfg) : List Str :=
  c.drivers.foldl (fun a d => match reg (lookupName c d) with | some fs => addAll a fs | none => a) []

/-- `enable_to_features` (features.rs:248-281). -/
def capability (cap : Str) : List Str :=
  let c := cap.map Char.toLower
  if c = "cuda".toList ∨ c = "gpu".toList then ["cuda".toList]
  else if c = "python".toList ∨ c = "py".toList then ["python".toList]
  else if c = "opencv".toList ∨ c = "opencv-backend".toList then ["opencv-backend".toList]
  else if c = "net".toList ∨ c = "network".toList then []
  else if c = "io-uring".toList ∨ c = "io-uring-net".toList then ["io-uring-net".toList]
  else if c = "sim".toList ∨ c = "simulation".toList then []
  else [c]

/-- `get_cargo_features_from_enable` (features.rs:284-297). -/
def enableFeatures (caps : List Str) : List Str := caps.foldl (fun a c => addAll a (capability c)) []

/-- `get_all_cargo_features` (features.rs:323-348), before the features are joined with commas. -/
def allFeatures (reg : Str → Option (List Str)) (c : Cfg) (caps : List Str) : List Str :=
  addAll (addAll [] (driverFeatures reg c)) (enableFeatures caps)

/-! ### Proofs -/

theorem addAll_mem (acc fs : List Str) (f : Str) : f ∈ addAll acc fs ↔ f ∈ acc ∨ f ∈ fs := by
  unfold addAll
  induction fs generalizing acc with
  | nil => simp
  | cons a fs ih =>
    rw [List.foldl_cons, ih]
    by_cases h : acc.contains a = true
    · rw [if_pos h]
      rw [List.contains_iff_mem] at h
      simp only [List.mem_cons]
      constructor
      · rintro (h' | h')
        · exact .inl h'
        · exact .inr (.inr h')
      · rintro (h' | rfl | h')
        · exact .inl h'
        · exact .inl h
        · exact .inr h'
    · rw [if_neg h]
      simp [or_assoc]

theorem addAll_nodup (acc fs : List Str) (h : acc.Nodup) : (addAll acc fs).Nodup := by
  unfold addAll
  induction fs generalizing acc with
  | nil => exact h
  | cons a fs ih =>
    rw [List.foldl_cons]
    apply ih
    by_cases hc : acc.contains a = true
    · rw [if_pos hc]; exact h
    · rw [if_neg hc]
      rw [List.contains_iff_mem] at hc
      rw [List.nodup_append]
      exact ⟨h, List.nodup_singleton a, fun x hx y hy => by rw [List.mem_singleton] at hy; subst hy; exact fun e => hc (e ▸ hx)⟩

theorem driver_mem (reg : Str → Option (List Str)) (c : Cfg) (f : Str) :
    f ∈ driverFeatures reg c ↔ ∃ d ∈ c.drivers, ∃ fs, reg (lookupName c d) = some fs ∧ f ∈ fs := by
  unfold driverFeatures
  have key : ∀ (l acc : List Str), f ∈ l.foldl (fun a d => match reg (lookupName c d) with | some fs => addAll a fs | none => a) acc ↔
      f ∈ acc ∨ ∃ d ∈ l, ∃ fs, reg (lookupName c d) = some fs ∧ f ∈ fs := by
    intro l
    induction l with
    | nil => simp
    | cons d l ih =>
      intro acc
      rw [List.foldl_cons, ih]
      cases h : reg (lookupName c d) with
      | none => simp [h]
      | some fs => simp [h, addAll_mem, or_assoc]
  rw [key]
  simp

theorem enable_mem (caps : List Str) (f : Str) : f ∈ enableFeatures caps ↔ ∃ c ∈ caps, f ∈ capability c := by
  unfold enableFeatures
  have key : ∀ (l acc : List Str), f ∈ l.foldl (fun a c => addAll a (capability c)) acc ↔ f ∈ acc ∨ ∃ c ∈ l, f ∈ capability c := by
    intro l
    induction l with
    | nil => simp
    | cons d l ih =>
      intro acc
      rw [List.foldl_cons, ih]
      simp [addAll_mem, or_assoc]
  rw [key]
  simp

/-- **Exactly the features asked for, each once.** -/
theorem all_features (reg : Str → Option (List Str)) (c : Cfg) (caps : List Str) :
    (allFeatures reg c caps).Nodup ∧
    ∀ f, f ∈ allFeatures reg c caps ↔
      (∃ d ∈ c.drivers, ∃ fs, reg (lookupName c d) = some fs ∧ f ∈ fs) ∨ ∃ k ∈ caps, f ∈ capability k := by
  unfold allFeatures
  refine ⟨addAll_nodup _ _ (addAll_nodup _ _ List.nodup_nil), ?_⟩
  intro f
  rw [addAll_mem, addAll_mem, driver_mem, enable_mem]
  simp

theorem drivers_mem (m : List (Str × Val)) (d : Str) :
    d ∈ (fromManifest m).drivers ↔ ∃ e ∈ m, match e.2 with
      | .config _ _ _ _ => d = e.1
      | .backend _ => d ∈ expand e.1
      | .enabled true => d ∈ expand e.1
      | .enabled false => False := by
  unfold fromManifest
  have key : ∀ (l : List (Str × Val)) (c : Cfg), d ∈ (l.foldl entry c).drivers ↔ d ∈ c.drivers ∨ ∃ e ∈ l, match e.2 with
      | .config _ _ _ _ => d = e.1
      | .backend _ => d ∈ expand e.1
      | .enabled true => d ∈ expand e.1
      | .enabled false => False := by
    intro l
    induction l with
    | nil => simp
    | cons e l ih =>
      intro c
      rw [List.foldl_cons, ih]
      obtain ⟨n, v⟩ := e
      cases v with
      | config u t p k => simp [entry, or_assoc]
      | backend b => simp [entry, or_assoc]
      | enabled b => cases b <;> simp [entry, or_assoc]
  rw [key]
  simp

/-- **Which drivers horus.toml switches on, one by one or in groups.** A disabled driver is not switched on,
unless an enabled group contains it. -/
theorem driver_on_partial (m : List (Str × Val)) (d : Str) (hg : ∀ e ∈ m, groupOf e.1 = none) :
    d ∈ (fromManifest m).drivers ↔ ∃ v, (d, v) ∈ m ∧ v ≠ .enabled false := by
  rw [drivers_mem]
  constructor
  · rintro ⟨⟨n, v⟩, he, h⟩
    have hx : expand n = [n] := by unfold expand; rw [hg _ he]
    cases v with
    | config u t p k => dsimp only at h; subst h; exact ⟨_, he, nofun⟩
    | backend b => dsimp only at h; rw [hx, List.mem_singleton] at h; subst h; exact ⟨_, he, nofun⟩
    | enabled b =>
      cases b with
      | true => dsimp only at h; rw [hx, List.mem_singleton] at h; subst h; exact ⟨_, he, nofun⟩
      | false => exact absurd h id
  · rintro ⟨v, he, hv⟩
    refine ⟨(d, v), he, ?_⟩
    have hx : expand d = [d] := by unfold expand; rw [hg _ he]
    cases v with
    | config u t p k => rfl
    | backend b => dsimp only; rw [hx]; exact List.mem_singleton_self d
    | enabled b =>
      cases b with
      | true => dsimp only; rw [hx]; exact List.mem_singleton_self d
      | false => exact absurd rfl hv

/-- **The environment replaces horus.toml** when it names anything at all. -/
theorem environment_wins (s : Str) (h : splitVar s ≠ []) (m m' : Option (List (Str × Val))) (k k' : Option (List Str)) :
    activeDrivers (some s) m = activeDrivers (some s) m' ∧ activeEnable (some s) k = activeEnable (some s) k' := by
  unfold activeDrivers activeEnable
  dsimp only
  rw [if_pos h, if_pos h, if_pos h, if_pos h]
  exact ⟨rfl, rfl⟩

theorem environment_empty (s : Str) (h : splitVar s = []) (m : Option (List (Str × Val))) (k : Option (List Str)) :
    activeDrivers (some s) m = activeDrivers none m ∧ activeEnable (some s) k = activeEnable none k := by
  unfold activeDrivers activeEnable
  dsimp only
  rw [if_neg (fun h' => h' h), if_neg (fun h' => h' h)]
  exact ⟨rfl, rfl⟩

example : splitVar " cuda, ,py ".toList = ["cuda".toList, "py".toList] ∧ splitVar ", ,".toList = [] := by decide +kernel

/-- A registry for the examples: every name has a feature of its own. -/
def echoReg (s : Str) : Option (List Str) := some [s]

example : allFeatures echoReg (fromManifest [("imu".toList, .backend "mpu".toList), ("gps".toList, .enabled false), ("lidar".toList, .enabled true)])
    ["GPU".toList, "cuda".toList, "net".toList] = ["imu-mpu".toList, "lidar".toList, "cuda".toList] := by decide +kernel

/-- **A disabled driver is switched on by a group**: `camera = false` with `vision = true`. -/
theorem disabled_but_on : "camera".toList ∈
    (fromManifest [("camera".toList, .enabled false), ("vision".toList, .enabled true)]).drivers := by decide +kernel

/-- **The backend given for a group reaches none of its members**: whatever the backend, every member is looked up
without one. -/
theorem group_backend_lost (b d : Str) (hd : d ∈ ["lidar".toList, "gps".toList, "imu".toList]) :
    lookupName (fromManifest [("navigation".toList, .backend b)]) d = d := by
  simp only [List.mem_cons, List.not_mem_nil, or_false] at hd
  rcases hd with rfl | rfl | rfl <;> simp [fromManifest, entry, lookupName, List.lookup]

/-- **Group names are not understood in the environment, nor as a table.** -/
theorem group_only_in_toml :
    (activeDrivers (some "vision".toList) none).drivers = ["vision".toList] ∧
    (fromManifest [("vision".toList, .config none none none none)]).drivers = ["vision".toList] ∧
    (fromManifest [("vision".toList, .enabled true)]).drivers = ["camera".toList, "depth-camera".toList] := by decide +kernel

/-- **Of several sources in one table the first of `terra`, `package` and `node` is the backend.** -/
theorem source_order (n t : Str) (p q : Option Str) (u : Option Str) :
    (fromManifest [(n, .config u (some t) p q)]).backends = [(n, t)] ∧
    (fromManifest [(n, .config u none (some t) q)]).backends = [(n, t)] ∧
    (fromManifest [(n, .config u none none (some t))]).backends = [(n, t)] := by
  refine ⟨?_, ?_, ?_⟩ <;> simp [fromManifest, entry]

/-- **The source key `use`, which replaces the others, is not looked at.** -/
theorem use_ignored (n u : Str) : lookupName (fromManifest [(n, .config (some u) none none none)]) n = n := by
  simp [fromManifest, entry, lookupName]

/-- **A driver the registry does not know is left out without a word**, as is every driver when the registry cannot
be reached. -/
theorem unreachable_silent (c : Cfg) : driverFeatures (fun _ => none) c = [] := by
  unfold driverFeatures
  induction c.drivers with
  | nil => rfl
  | cons d l ih => rw [List.foldl_cons]; exact ih

end Horus.Features
