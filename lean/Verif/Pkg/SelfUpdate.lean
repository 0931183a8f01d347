/-
`horus self update`: when horus itself and the installed plugins are updated,
and to what.

Modelled source: horus_manager/src/commands/upgrade.rs (12-320),
horus_manager/src/main.rs (2832-2852, 3169), horus_manager/src/plugins/registry.rs
(202-255), horus_manager/src/plugins/resolver.rs (1-12).
-/
import Mathlib.Tactic.Common

namespace Horus.SelfUpdate

abbrev Text := List Char

/-- A plugin in a `plugins.lock`: command, package, version.

Models the tuples of horus_manager/src/commands/upgrade.rs:131-165. -/
structure Plugin where
  cmd : Text
  pkg : Text
  ver : Text
deriving DecidableEq, Repr

/-- What the command finds.  `latest` is the registry's answer for horus
(`none`: no answer, or one without a version), `served` its answer for a
package.  `here` is the Cargo package in the working directory, if there is
one, `builds` whether it builds.  `globalDir` and `localDir` are the names in
`~/.horus/plugins` and `.horus/plugins`; `globalReg` and `localReg` the plugins
of `~/.horus/plugins.lock` and `.horus/plugins.lock` (`none`: no such file or
not readable).  `installs` says whether installing a package at a version
succeeds. -/
structure World where
  current : Text
  latest : Option Text
  here : Option (Text × Text)
  builds : Bool
  globalDir : List Text
  localDir : List Text
  globalReg : Option (List Plugin)
  localReg : Option (List Plugin)
  served : Text → Option Text
  installs : Text → Text → Bool

/-- What the command does. -/
inductive Act
  /-- `cargo install --path .` put this package into `~/.cargo/bin`. -/
  | cargo (name ver : Text)
  /-- A plugin package is installed from the registry. -/
  | plugin (pkg ver : Text) (isGlobal : Bool)
deriving DecidableEq, Repr

/-- What it tells the user. -/
inductive Say
  | newVersion (v : Text) | upToDate | unknown
  | upgraded (v : Text) | failed
  | pluginNew (cmd ver : Text) | pluginUpgraded (cmd ver : Text) | pluginFailed (cmd : Text)
  | pluginCurrent (cmd : Text) | pluginUnknown (cmd : Text)
deriving DecidableEq, Repr

/-- `upgrade_horus`: the version is only printed; what is built is the package
in the working directory.

Models horus_manager/src/commands/upgrade.rs:84-107. -/
def upgradeHorus (w : World) (v : Text) : List Act × List Say :=
  match w.here with
  | some p => if w.builds then ([.cargo p.1 p.2], [.upgraded v]) else ([], [.failed])
  | none => ([], [.failed])

/-- The first phase.

Models horus_manager/src/commands/upgrade.rs:22-45. -/
def phase1 (checkOnly : Bool) (w : World) : List Act × List Say :=
  match w.latest with
  | some v =>
    if v = w.current then ([], [.upToDate])
    else if checkOnly then ([], [.newVersion v])
    else ((upgradeHorus w v).1, .newVersion v :: (upgradeHorus w v).2)
  | none => ([], [.unknown])

/-- `collect_plugin_entries`: the global plugins, then the project's whose
command is not among them.

Models horus_manager/src/commands/upgrade.rs:131-167. -/
def collect (w : World) : List (Plugin × Bool) :=
  let g := (w.globalReg.getD []).map fun p => (p, true)
  let l := ((w.localReg.getD []).filter fun p => !((w.globalReg.getD []).any fun q => q.cmd == p.cmd))
  g ++ l.map fun p => (p, false)

/-- One plugin of `upgrade_plugins` (and of `check_plugin_updates`, with
`checkOnly`).

Models horus_manager/src/commands/upgrade.rs:178-205 and 217-259. -/
def one (checkOnly : Bool) (w : World) (e : Plugin × Bool) : List Act × List Say :=
  match w.served e.1.pkg with
  | some v =>
    if v = e.1.ver then ([], [.pluginCurrent e.1.cmd])
    else if checkOnly then ([], [.pluginNew e.1.cmd v])
    else if w.installs e.1.pkg v then ([.plugin e.1.pkg v e.2], [.pluginNew e.1.cmd v, .pluginUpgraded e.1.cmd v])
    else ([], [.pluginNew e.1.cmd v, .pluginFailed e.1.cmd])
  | none => ([], [.pluginUnknown e.1.cmd])

/-- `list_installed_plugins`.

Models horus_manager/src/commands/upgrade.rs:296-320. -/
def listed (w : World) : List Text := w.globalDir ++ w.localDir

/-- The second phase.

Models horus_manager/src/commands/upgrade.rs:47-61. -/
def phase2 (checkOnly : Bool) (w : World) : List Act × List Say :=
  if listed w = [] then ([], [])
  else ((collect w).flatMap fun e => (one checkOnly w e).1, (collect w).flatMap fun e => (one checkOnly w e).2)

/-- `run_upgrade`.

Models horus_manager/src/commands/upgrade.rs:12-62. -/
def run (checkOnly : Bool) (w : World) : List Act × List Say :=
  ((phase1 checkOnly w).1 ++ (phase2 checkOnly w).1, (phase1 checkOnly w).2 ++ (phase2 checkOnly w).2)

/-! ### Theorems -/

/-- `--check` installs nothing. -/
theorem check_inert (w : World) : (run true w).1 = [] := by
  have h1 : (phase1 true w).1 = [] := by
    cases hl : w.latest with
    | none => simp [phase1, hl]
    | some v => by_cases hv : v = w.current <;> simp [phase1, hl, hv]
  have h2 : (phase2 true w).1 = [] := by
    by_cases hd : listed w = []
    · simp [phase2, hd]
    · simp only [phase2, hd, if_false, List.flatMap_eq_nil_iff]
      intro e _
      cases hs : w.served e.1.pkg with
      | none => simp [one, hs]
      | some v => by_cases hv : v = e.1.ver <;> simp [one, hs, hv]
  simp [run, h1, h2]

theorem cargo_not_phase2 (c : Bool) (w : World) (n v : Text) : Act.cargo n v ∉ (phase2 c w).1 := by
  by_cases hd : listed w = []
  · simp [phase2, hd]
  · simp only [phase2, hd, if_false, List.mem_flatMap, not_exists, not_and]
    intro e _
    cases hs : w.served e.1.pkg with
    | none => simp [one, hs]
    | some u =>
      by_cases hv : u = e.1.ver
      · simp [one, hs, hv]
      · cases c with
        | true => simp [one, hs, hv]
        | false => by_cases hi : w.installs e.1.pkg u = true <;> simp [one, hs, hv, hi]

theorem plugin_not_phase1 (c : Bool) (w : World) (p v : Text) (g : Bool) :
    Act.plugin p v g ∉ (phase1 c w).1 := by
  cases hl : w.latest with
  | none => simp [phase1, hl]
  | some u =>
    by_cases hv : u = w.current
    · simp [phase1, hl, hv]
    · cases c with
      | true => simp [phase1, hl, hv]
      | false =>
        cases hh : w.here with
        | none => simp [phase1, hl, hv, upgradeHorus, hh]
        | some q => by_cases hb : w.builds = true <;> simp [phase1, hl, hv, upgradeHorus, hh, hb]

/-- Cargo is run exactly when the registry names a version that is not the
running one, and what it installs is the package of the working directory. -/
theorem cargo_iff (w : World) (n v : Text) :
    Act.cargo n v ∈ (run false w).1 ↔
      (∃ l, w.latest = some l ∧ l ≠ w.current) ∧ w.here = some (n, v) ∧ w.builds = true := by
  have h2 := cargo_not_phase2 false w n v
  simp only [run, List.mem_append, h2, or_false]
  cases hl : w.latest with
  | none => simp [phase1, hl]
  | some u =>
    by_cases hv : u = w.current
    · simp [phase1, hl, hv]
    · cases hh : w.here with
      | none => simp [phase1, hl, hv, upgradeHorus, hh]
      | some q =>
        by_cases hb : w.builds = true
        · simp [phase1, hl, hv, upgradeHorus, hh, hb, Prod.ext_iff, eq_comm]
        · simp [phase1, hl, hv, upgradeHorus, hh, hb]

/-- With the registry's version running, horus itself is left alone and the
user is told so. -/
theorem current_left_alone (c : Bool) (w : World) (h : w.latest = some w.current) :
    (∀ n v, Act.cargo n v ∉ (run c w).1) ∧ Say.upToDate ∈ (run c w).2 := by
  have hp : phase1 c w = ([], [.upToDate]) := by simp [phase1, h]
  refine ⟨fun n v => ?_, ?_⟩
  · simpa [run, hp] using cargo_not_phase2 c w n v
  · simp [run, hp]

/-- **Finding.**  Whatever package the working directory holds is installed, and
the user is told horus was upgraded to the registry's version. -/
theorem wrong_package_claimed (w : World) (l n v : Text) (hl : w.latest = some l)
    (hc : l ≠ w.current) (hh : w.here = some (n, v)) (hb : w.builds = true) :
    Act.cargo n v ∈ (run false w).1 ∧ Say.upgraded l ∈ (run false w).2 := by
  refine ⟨(cargo_iff w n v).2 ⟨⟨l, hl, hc⟩, hh, hb⟩, ?_⟩
  simp [run, phase1, hl, hc, upgradeHorus, hh, hb]

/-- **Finding.**  Outside a Cargo package the update cannot work. -/
theorem nowhere_fails (w : World) (hh : w.here = none) (n v : Text) :
    Act.cargo n v ∉ (run false w).1 := by
  rw [cargo_iff, hh]
  simp

/-- A plugin is installed by the update exactly when it is among the
registered ones and the registry serves another version of its package, to the
place it was registered in; which plugin's installation fails does not matter
to the others. -/
theorem plugin_iff (w : World) (hd : listed w ≠ []) (p v : Text) (g : Bool) :
    Act.plugin p v g ∈ (run false w).1 ↔
      ∃ e, (e, g) ∈ collect w ∧ e.pkg = p ∧ w.served p = some v ∧ v ≠ e.ver ∧
        w.installs p v = true := by
  have h1 := plugin_not_phase1 false w p v g
  simp only [run, List.mem_append, h1, false_or]
  simp only [phase2, hd, if_false, List.mem_flatMap]
  constructor
  · rintro ⟨⟨e, b⟩, he, ha⟩
    cases hs : w.served e.pkg with
    | none => simp [one, hs] at ha
    | some u =>
      by_cases hv : u = e.ver
      · simp [one, hs, hv] at ha
      · by_cases hi : w.installs e.pkg u = true
        · simp [one, hs, hv, hi] at ha
          obtain ⟨rfl, rfl, rfl⟩ := ha
          exact ⟨e, he, rfl, hs, hv, hi⟩
        · simp [one, hs, hv, hi] at ha
  · rintro ⟨e, he, rfl, hs, hv, hi⟩
    exact ⟨(e, g), he, by simp [one, hs, hv, hi]⟩

/-- The plugins looked at: all global ones, and the project's under other
commands. -/
theorem collect_mem (w : World) (e : Plugin) (g : Bool) :
    (e, g) ∈ collect w ↔
      (g = true ∧ e ∈ w.globalReg.getD []) ∨
      (g = false ∧ e ∈ w.localReg.getD [] ∧ ∀ q ∈ w.globalReg.getD [], q.cmd ≠ e.cmd) := by
  cases g <;> simp [collect]

/-- No command is looked at twice. -/
theorem collect_nodup (w : World) (hg : ((w.globalReg.getD []).map Plugin.cmd).Nodup)
    (hl : ((w.localReg.getD []).map Plugin.cmd).Nodup) :
    ((collect w).map fun e => e.1.cmd).Nodup := by
  simp only [collect, List.map_append, List.map_map, Function.comp_def]
  refine List.nodup_append.2 ⟨hg, ?_, ?_⟩
  · exact List.Nodup.sublist (List.Sublist.map _ List.filter_sublist) hl
  · intro a ha b hb hab
    obtain ⟨p, hp, rfl⟩ := List.mem_map.1 ha
    obtain ⟨q, hq, rfl⟩ := List.mem_map.1 hb
    have := (List.mem_filter.1 hq).2
    simp only [Bool.not_eq_true', List.any_eq_false, beq_iff_eq] at this
    exact this p hp hab

/-- **Finding.**  The update of plugins is skipped unless `~/.horus/plugins` or
`.horus/plugins` has something in it.  Plugins are kept in `plugins.lock` and
`bin`, and no command makes those directories: registered plugins are never
updated. -/
theorem no_directory_no_update (w : World) (hd : listed w = []) (p v : Text) (g : Bool) :
    Act.plugin p v g ∉ (run false w).1 := by
  have h1 := plugin_not_phase1 false w p v g
  simp [run, h1, phase2, hd]

/-- **Finding.**  A project plugin is not updated when a global plugin has the
same command, although it is the project's that runs. -/
theorem shadowed_not_updated (w : World) (hd : listed w ≠ []) (q e : Plugin)
    (hq : q ∈ w.globalReg.getD []) (hc : q.cmd = e.cmd) (v : Text)
    (hu : ∀ x ∈ w.localReg.getD [], x.pkg = e.pkg → x = e) :
    Act.plugin e.pkg v false ∉ (run false w).1 := by
  rw [plugin_iff w hd]
  rintro ⟨x, hx, hp, -, -, -⟩
  rcases (collect_mem w x false).1 hx with ⟨h, -⟩ | ⟨-, hl, hn⟩
  · exact absurd h (by simp)
  · have hxe := hu x hl hp
    rw [hxe] at hn
    exact hn q hq hc

/-- Every registered plugin of `collect` is reported on, and a success is only
reported for one that was installed. -/
theorem upgraded_means_installed (w : World) (c v : Text)
    (h : Say.pluginUpgraded c v ∈ (run false w).2) :
    ∃ e g, (e, g) ∈ collect w ∧ e.cmd = c ∧ Act.plugin e.pkg v g ∈ (run false w).1 := by
  have h1 : Say.pluginUpgraded c v ∉ (phase1 false w).2 := by
    cases hl : w.latest with
    | none => simp [phase1, hl]
    | some u =>
      by_cases hv : u = w.current
      · simp [phase1, hl, hv]
      · cases hh : w.here with
        | none => simp [phase1, hl, hv, upgradeHorus, hh]
        | some q => by_cases hb : w.builds = true <;> simp [phase1, hl, hv, upgradeHorus, hh, hb]
  simp only [run, List.mem_append, h1, false_or] at h
  by_cases hd : listed w = []
  · simp [phase2, hd] at h
  · simp only [phase2, hd, if_false, List.mem_flatMap] at h
    obtain ⟨⟨e, g⟩, he, ha⟩ := h
    cases hs : w.served e.pkg with
    | none => simp [one, hs] at ha
    | some u =>
      by_cases hv : u = e.ver
      · simp [one, hs, hv] at ha
      · by_cases hi : w.installs e.pkg u = true
        · simp [one, hs, hv, hi] at ha
          obtain ⟨rfl, rfl⟩ := ha
          exact ⟨e, g, he, rfl, (plugin_iff w hd _ _ _).2 ⟨e, he, rfl, hs, hv, hi⟩⟩
        · simp [one, hs, hv, hi] at ha

/-! ### Cases -/

/-- Horus 0.2.0 in the directory of a robot project; the registry has 0.1.9. -/
def box : World := ⟨"0.2.0".toList, some "0.1.9".toList, some ("robot".toList, "1.0.0".toList), true, ["x".toList], [], some [⟨"nav".toList, "nav-pkg".toList, "1.0".toList⟩, ⟨"sim".toList, "sim-pkg".toList, "1.0".toList⟩], some [⟨"nav".toList, "nav-local".toList, "1.0".toList⟩], fun p => if p = "gone".toList then none else some "2.0".toList, fun p _ => p != "sim-pkg".toList⟩

/-- **Finding.**  An older version in the registry counts as new: the user of
0.2.0 is told "New version available: 0.2.0 -> 0.1.9" (and here the robot
project is installed and reported as that). -/
theorem older_offered : ∃ w : World, w.current = "0.2.0".toList ∧ w.latest = some "0.1.9".toList ∧
    Say.newVersion "0.1.9".toList ∈ (run true w).2 ∧
    Act.cargo "robot".toList "1.0.0".toList ∈ (run false w).1 ∧
    Say.upgraded "0.1.9".toList ∈ (run false w).2 := ⟨box, by decide +kernel⟩

example : (run false box).1 = [.cargo "robot".toList "1.0.0".toList, .plugin "nav-pkg".toList "2.0".toList true] := by decide +kernel
example : (run true box).1 = [] := by decide +kernel
example : (run false { box with globalDir := [] }).1 = [.cargo "robot".toList "1.0.0".toList] := by decide +kernel

end Horus.SelfUpdate
