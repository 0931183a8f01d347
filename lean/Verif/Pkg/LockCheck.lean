/-
Writing `horus.lock` and holding a machine against it: what `horus lock`
records and keeps, and what `horus lock --check` and every build report.

Modelled source: horus_manager/src/system_deps.rs (342-534),
horus_manager/src/main.rs (2382-2443), horus_manager/src/lockfile.rs (48-98).
-/
import Mathlib.Tactic.Common

namespace Horus.LockCheck

abbrev Text := List Char

/-! ### Versions -/

/-- `split('.')`.

Models the two `split` calls of horus_manager/src/system_deps.rs:482-483. -/
def parts : Text → List Text
  | [] => [[]]
  | c :: cs =>
    if c = '.' then [] :: parts cs
    else match parts cs with
      | [] => [[c]]
      | p :: ps => (c :: p) :: ps

/-- `version_compatible`: the first parts are equal, and so are the second
parts (`None` equals `None` only).

Models horus_manager/src/system_deps.rs:481-486. -/
def compatible (pinned actual : Text) : Bool :=
  (parts pinned)[0]? == (parts actual)[0]? && (parts pinned)[1]? == (parts actual)[1]?

/-! ### The lock file and the machine -/

/-- A locked system library with its name in each package manager.

Models horus_manager/src/lockfile.rs:66-98. -/
structure Sys where
  name : Text
  version : Text
  pkgConfig : Option Text
  apt : Option Text
  brew : Option Text
  pacman : Option Text
  choco : Option Text
deriving DecidableEq, Repr

/-- Pinned tools.

Models horus_manager/src/lockfile.rs:50-63. -/
structure Pins where
  rust : Option Text
  python : Option Text
  cmake : Option Text
deriving DecidableEq, Repr

/-- The lock file, as far as these commands read it.  A package is its name
and version.

Models horus_manager/src/lockfile.rs:100-160. -/
structure Lock where
  packages : List (Text × Text)
  toolchain : Option Pins
  system : List Sys
deriving DecidableEq, Repr

/-- `HorusLockfile::new`.

Models horus_manager/src/lockfile.rs:148-160. -/
def Lock.fresh : Lock := ⟨[], none, []⟩

inductive Os | linux | macos | windows | other
deriving DecidableEq, Repr

/-- What the machine answers: the version printed by each tool (`none` when the
tool cannot be run), whether `pkg-config --exists` succeeds, and which package
managers are in `/usr/bin`.  Simplified: the two ways the code cuts the version
out of `rustc --version` and `python3 --version` (helpers.rs:4-26 when locking,
system_deps.rs:488-512 when checking) are one function here; they agree on
`rustc 1.78.0 (…)` and `Python 3.12.3`. -/
structure Machine where
  rust : Option Text
  python : Option Text
  cmake : Option Text
  found : Text → Bool
  os : Os
  hasApt : Bool
  hasPacman : Bool

/-! ### Verification -/

/-- A line of advice. -/
inductive Advice
  | apt (p : Text) | pacman (p : Text) | brew (p : Text) | choco (p : Text) | byHand (name : Text)
deriving DecidableEq, Repr

/-- The Linux branch of `suggest_system_install`.

Models horus_manager/src/system_deps.rs:423-440. -/
def suggestLinux (m : Machine) (d : Sys) : Advice :=
  match d.apt, d.pacman with
  | some a, some p => if m.hasApt then .apt a else if m.hasPacman then .pacman p else .apt a
  | some a, none => .apt a
  | none, some p => if m.hasPacman then .pacman p else .byHand d.name
  | none, none => .byHand d.name

/-- `suggest_system_install`.

Models horus_manager/src/system_deps.rs:418-455. -/
def suggest (m : Machine) (d : Sys) : Advice :=
  match m.os with
  | .linux => suggestLinux m d
  | .macos => match d.brew with | some b => .brew b | none => .byHand d.name
  | .windows => match d.choco with | some c => .choco c | none => .byHand d.name
  | .other => .byHand d.name

inductive Tool | rust | python | cmake
deriving DecidableEq, Repr

/-- One tool of `check_toolchain`: a warning only when there is a pin, the tool
runs, and the versions disagree.

Models horus_manager/src/system_deps.rs:376-385, 388-397. -/
def warnTool (t : Tool) (pin have_ : Option Text) : List (Tool × Text × Text) :=
  match pin, have_ with
  | some p, some a => if compatible p a then [] else [(t, p, a)]
  | _, _ => []

/-- `check_system_lock`'s test.

Models horus_manager/src/system_deps.rs:402-407. -/
def present (m : Machine) (d : Sys) : Bool :=
  match d.pkgConfig with
  | some pc => m.found pc
  | none => false

/-- `LockfileVerification`.

Models horus_manager/src/system_deps.rs:344-352. -/
structure Result where
  warnings : List (Tool × Text × Text)
  missing : List (Text × Advice)
  hasErrors : Bool

/-- `verify_lockfile`.

Models horus_manager/src/system_deps.rs:356-370, 372-398, 400-415. -/
def verify (m : Machine) (l : Lock) : Result where
  warnings := match l.toolchain with
    | some t => warnTool .rust t.rust m.rust ++ warnTool .python t.python m.python
    | none => []
  missing := (l.system.filter fun d => !present m d).map fun d => (d.name, suggest m d)
  hasErrors := false

/-- A line of the printed report. -/
inductive Line
  | warning (t : Tool) (pinned actual : Text) | header | lacks (name : Text) (a : Advice)
deriving DecidableEq, Repr

/-- `format_lockfile_report`.

Models horus_manager/src/system_deps.rs:458-478. -/
def report (r : Result) : List Line :=
  r.warnings.map (fun w => .warning w.1 w.2.1 w.2.2) ++
    (if r.missing.isEmpty then [] else .header :: r.missing.map fun p => .lacks p.1 p.2)

/-! ### The command -/

/-- `horus.lock` on disk: absent, unreadable, or a lock file. -/
inductive Disk
  | absent | broken | good (l : Lock)
deriving DecidableEq, Repr

/-- `horus lock --check`: whether it succeeds, and what it prints after the
heading.

Models horus_manager/src/main.rs:2386-2418. -/
def check (m : Machine) : Disk → Bool × List Line
  | .absent => (false, [])
  | .broken => (false, [])
  | .good l => (true, report (verify m l))

/-- `horus lock`: the file afterwards (when it can be written).

Models horus_manager/src/main.rs:2419-2443. -/
def lock (m : Machine) (d : Disk) : Lock :=
  let base := match d with
    | .good l => l
    | _ => Lock.fresh
  { base with toolchain := some ⟨m.rust, m.python, none⟩ }

/-- `verify_lockfile_before_build`: what a build prints; it goes on in any case.

Models horus_manager/src/system_deps.rs:516-534. -/
def beforeBuild (m : Machine) : Disk → List Line
  | .good l => report (verify m l)
  | _ => []

/-! ### Theorems: versions -/

theorem parts_nodot (a : Text) (h : '.' ∉ a) : parts a = [a] := by
  induction a with
  | nil => rfl
  | cons c cs ih =>
    have hc : c ≠ '.' := fun e => h (by simp [e])
    have hcs : '.' ∉ cs := fun e => h (by simp [e])
    simp [parts, hc, ih hcs]

theorem parts_append (a r : Text) (h : '.' ∉ a) : parts (a ++ '.' :: r) = a :: parts r := by
  induction a with
  | nil => simp [parts]
  | cons c cs ih =>
    have hc : c ≠ '.' := fun e => h (by simp [e])
    have hcs : '.' ∉ cs := fun e => h (by simp [e])
    simp [parts, hc, ih hcs]

/-- Two three-part versions are taken for each other exactly when major and
minor agree; the rest may differ. -/
theorem same_major_minor (a b c a' b' c' : Text) (ha : '.' ∉ a) (hb : '.' ∉ b)
    (ha' : '.' ∉ a') (hb' : '.' ∉ b') :
    compatible (a ++ '.' :: (b ++ '.' :: c)) (a' ++ '.' :: (b' ++ '.' :: c')) = true ↔
      a = a' ∧ b = b' := by
  simp [compatible, parts_append, ha, hb, ha', hb']

/-- A pin of major and minor accepts every patch of it and nothing else. -/
theorem minor_pin (a b a' b' c' : Text) (ha : '.' ∉ a) (hb : '.' ∉ b)
    (ha' : '.' ∉ a') (hb' : '.' ∉ b') :
    compatible (a ++ '.' :: b) (a' ++ '.' :: (b' ++ '.' :: c')) = true ↔ a = a' ∧ b = b' := by
  simp [compatible, parts_append, parts_nodot, ha, hb, ha', hb']

/-- **Finding.**  A pin of the major version alone (`3`) accepts no version
that has a minor part: every Python 3 is reported as a mismatch. -/
theorem major_pin_rejects (a r : Text) (ha : '.' ∉ a) :
    compatible a (a ++ '.' :: r) = false := by
  have hp : parts r ≠ [] := by
    cases r with
    | nil => simp [parts]
    | cons c cs =>
      simp only [parts]
      split
      · simp
      · split <;> simp
  obtain ⟨p, ps, hps⟩ := List.exists_cons_of_ne_nil hp
  simp [compatible, parts_append, parts_nodot, ha, hps]

/-- Being taken for each other is reflexive, symmetric and transitive. -/
theorem compatible_refl (v : Text) : compatible v v = true := by simp [compatible]

theorem compatible_symm (v w : Text) : compatible v w = compatible w v := by
  rw [Bool.eq_iff_iff]
  simp only [compatible, Bool.and_eq_true, beq_iff_eq]
  constructor <;> rintro ⟨h1, h2⟩ <;> exact ⟨h1.symm, h2.symm⟩

theorem compatible_trans (u v w : Text) (h1 : compatible u v = true) (h2 : compatible v w = true) :
    compatible u w = true := by
  simp only [compatible, Bool.and_eq_true, beq_iff_eq] at *
  exact ⟨h1.1.trans h2.1, h1.2.trans h2.2⟩

/-! ### Theorems: what is reported -/

/-- A build warns about Rust exactly when Rust is pinned, runs, and differs in
major or minor version; likewise Python. -/
theorem warned_iff (m : Machine) (l : Lock) (t : Tool) (p a : Text) :
    (t, p, a) ∈ (verify m l).warnings ↔
      ∃ pins, l.toolchain = some pins ∧ compatible p a = false ∧
        ((t = .rust ∧ pins.rust = some p ∧ m.rust = some a) ∨
         (t = .python ∧ pins.python = some p ∧ m.python = some a)) := by
  have key : ∀ (s : Tool) (pin hv : Option Text),
      (t, p, a) ∈ warnTool s pin hv ↔
        compatible p a = false ∧ t = s ∧ pin = some p ∧ hv = some a := by
    intro s pin hv
    cases pin with
    | none => simp [warnTool]
    | some p' =>
      cases hv with
      | none => simp [warnTool]
      | some a' =>
        by_cases hc : compatible p' a' = true
        · simp only [warnTool, hc, if_true, List.not_mem_nil, Option.some.injEq, false_iff]
          rintro ⟨h, -, rfl, rfl⟩
          rw [hc] at h; exact absurd h (by simp)
        · simp only [warnTool, hc, if_false, Bool.false_eq_true, List.mem_singleton, Prod.mk.injEq, Option.some.injEq]
          constructor
          · rintro ⟨rfl, rfl, rfl⟩
            exact ⟨by simpa using hc, rfl, rfl, rfl⟩
          · rintro ⟨-, rfl, rfl, rfl⟩
            exact ⟨rfl, rfl, rfl⟩
  cases ht : l.toolchain with
  | none => simp [verify, ht]
  | some pins =>
    simp only [verify, ht, List.mem_append, key, Option.some.injEq, exists_eq_left']
    tauto

/-- **Finding.**  A pinned tool that is not on the machine at all gives no
warning. -/
theorem absent_tool_silent (m : Machine) (l : Lock) (hr : m.rust = none) (hp : m.python = none) :
    (verify m l).warnings = [] := by
  cases ht : l.toolchain with
  | none => simp [verify, ht]
  | some pins => simp [verify, ht, hr, hp, warnTool]

/-- **Finding.**  The CMake pin is compared with nothing. -/
theorem cmake_unchecked (m : Machine) (l : Lock) (pins : Pins) (c c' : Option Text) :
    verify { m with cmake := c' } { l with toolchain := some { pins with cmake := c } } =
      verify m { l with toolchain := some pins } := rfl

/-- The libraries reported missing are those of the lock file, in its order,
that pkg-config does not know under the locked name. -/
theorem missing_exact (m : Machine) (l : Lock) :
    (verify m l).missing.map Prod.fst =
      (l.system.filter fun d => !(d.pkgConfig.any m.found)).map Sys.name := by
  have hp : ∀ d : Sys, (!present m d) = !(d.pkgConfig.any m.found) := by
    intro d
    cases hd : d.pkgConfig <;> simp [present, hd]
  simp only [verify, List.map_map, Function.comp_def, hp]

/-- **Finding.**  A library locked without a pkg-config name is reported missing
on every machine. -/
theorem nameless_always_missing (m : Machine) (l : Lock) (d : Sys) (hd : d ∈ l.system)
    (hn : d.pkgConfig = none) : ∃ a, (d.name, a) ∈ (verify m l).missing := by
  refine ⟨suggest m d, List.mem_map.2 ⟨d, List.mem_filter.2 ⟨hd, ?_⟩, rfl⟩⟩
  simp [present, hn]

/-- **Finding.**  The locked version of a library plays no part: locks that
differ only there are verified alike. -/
theorem library_version_unchecked (m : Machine) (l : Lock) (f : Sys → Text) :
    verify m { l with system := l.system.map fun d => { d with version := f d } } = verify m l := by
  have h : ∀ ds : List Sys,
      (((ds.map fun d => { d with version := f d }).filter fun d => !present m d).map
          fun d => (d.name, suggest m d)) =
        (ds.filter fun d => !present m d).map fun d => (d.name, suggest m d) := by
    intro ds
    induction ds with
    | nil => rfl
    | cons d ds ih =>
      have hp : present m { d with version := f d } = present m d := rfl
      have hs : suggest m { d with version := f d } = suggest m d := rfl
      by_cases hq : present m d = true
      · simp [hp, hq, ih]
      · simp [hp, hq, hs, ih]
  simp only [verify, h]

/-- The report is empty exactly when there is nothing to report. -/
theorem silent_iff (r : Result) : report r = [] ↔ r.warnings = [] ∧ r.missing = [] := by
  cases hm : r.missing <;> simp [report, hm]

/-- Every missing library is printed with its advice, every warning with both
versions. -/
theorem report_complete (r : Result) :
    (∀ t p a, (t, p, a) ∈ r.warnings ↔ Line.warning t p a ∈ report r) ∧
    (∀ n a, (n, a) ∈ r.missing ↔ Line.lacks n a ∈ report r) := by
  constructor
  · intro t p a
    cases hm : r.missing <;> simp [report, hm]
  · intro n a
    cases hm : r.missing with
    | nil => simp [report, hm]
    | cons x xs => simp [report, hm, Prod.ext_iff, eq_comm]

/-- Advice on Linux: the package manager that is there is named when the lock
has a name for it, apt before pacman. -/
theorem advice_present (m : Machine) (d : Sys) (ho : m.os = .linux) :
    (∀ a, d.apt = some a → m.hasApt = true → suggest m d = .apt a) ∧
    (∀ p, d.pacman = some p → m.hasPacman = true → (m.hasApt = false ∨ d.apt = none) →
      suggest m d = .pacman p) := by
  constructor
  · intro a ha hm
    cases hp : d.pacman <;> simp [suggest, ho, suggestLinux, ha, hp, hm]
  · intro p hp hm h
    cases ha : d.apt with
    | none => simp [suggest, ho, suggestLinux, ha, hp, hm]
    | some a =>
      rcases h with h | h
      · simp [suggest, ho, suggestLinux, ha, hp, hm, h]
      · rw [ha] at h; exact absurd h (by simp)

/-- Advice elsewhere. -/
theorem advice_elsewhere (m : Machine) (d : Sys) :
    (m.os = .macos → ∀ b, d.brew = some b → suggest m d = .brew b) ∧
    (m.os = .windows → ∀ c, d.choco = some c → suggest m d = .choco c) := by
  constructor <;> intro ho x hx <;> simp [suggest, ho, hx]

/-- **Finding.**  On a Linux without apt, a library with only an apt name is
advised with `sudo apt install`. -/
theorem apt_advised_without_apt (m : Machine) (d : Sys) (a : Text) (ho : m.os = .linux)
    (ha : d.apt = some a) (hp : d.pacman = none) : suggest m d = .apt a := by
  simp [suggest, ho, suggestLinux, ha, hp]

/-! ### Theorems: the command -/

/-- **Finding.**  `horus lock --check` succeeds exactly when the file can be
read: missing libraries and mismatched tools are printed and do not fail it. -/
theorem check_ok_iff (m : Machine) (d : Disk) :
    (check m d).1 = true ↔ ∃ l, d = .good l := by
  cases d <;> simp [check]

/-- The flag for missing required libraries is never set. -/
theorem errors_never_set (m : Machine) (l : Lock) : (verify m l).hasErrors = false := rfl

/-- Read back on the same machine, a lock file just written draws no warning
about tools. -/
theorem lock_then_check (m : Machine) (d : Disk) : (verify m (lock m d)).warnings = [] := by
  have h : ∀ t (v : Option Text), warnTool t v v = [] := by
    intro t v
    cases v with
    | none => rfl
    | some a => simp [warnTool, compatible_refl]
  simp [verify, lock, h]

/-- A change of major or minor Rust version between locking and building is
reported. -/
theorem upgrade_reported (m m' : Machine) (d : Disk) (p a : Text) (hp : m.rust = some p)
    (ha : m'.rust = some a) (hc : compatible p a = false) :
    Line.warning .rust p a ∈ beforeBuild m' (.good (lock m d)) := by
  refine ((report_complete _).1 _ _ _).1 ((warned_iff _ _ _ _ _).2 ⟨_, rfl, hc, Or.inl ⟨rfl, hp, ha⟩⟩)

/-- Locking again keeps every pinned package and library. -/
theorem lock_keeps (m : Machine) (l : Lock) :
    (lock m (.good l)).packages = l.packages ∧ (lock m (.good l)).system = l.system := ⟨rfl, rfl⟩

/-- **Finding.**  `horus lock` records no system library: its result has those
the file already had, and none on a project without a lock file. -/
theorem lock_adds_no_system (m : Machine) : (lock m .absent).system = [] := rfl

/-- **Finding.**  An unreadable lock file is replaced by one without any pinned
package: whatever was in it is gone, and the command succeeds. -/
theorem broken_lock_replaced (m : Machine) :
    (lock m .broken).packages = [] ∧ (lock m .broken).system = [] := ⟨rfl, rfl⟩

/-- A build prints the same as `--check`, and nothing for a file that cannot
be read. -/
theorem build_prints_check (m : Machine) (d : Disk) : beforeBuild m d = (check m d).2 := by
  cases d <;> rfl

/-! ### Cases -/

/-- A Debian machine with Rust 1.78.0, Python 3.12.3 and libudev. -/
def box : Machine := ⟨some "1.78.0".toList, some "3.12.3".toList, none, fun n => n == "libudev".toList, .linux, true, false⟩

/-- A lock file with OpenCV and udev. -/
def sample : Lock := ⟨[("a".toList, "1.0.0".toList)], some ⟨some "1.77.2".toList, some "3.12.0".toList, none⟩, [⟨"opencv".toList, "4.8.1".toList, some "opencv4".toList, some "libopencv-dev".toList, none, none, none⟩, ⟨"udev".toList, "252".toList, some "libudev".toList, some "libudev-dev".toList, none, none, none⟩]⟩

example : report (verify box sample) = [.warning .rust "1.77.2".toList "1.78.0".toList, .header, .lacks "opencv".toList (.apt "libopencv-dev".toList)] := by decide +kernel
example : (check box (.good sample)).1 = true := rfl
example : (verify box (lock box (.good sample))).warnings = [] := by decide +kernel
example : compatible "3".toList "3.12.3".toList = false := by decide +kernel
example : compatible "1.78".toList "1.78.3".toList = true := by decide +kernel

end Horus.LockCheck
