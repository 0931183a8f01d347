/-
What a build says about system packages, groups, libraries and devices needed
by the features it detected.

Modelled source: horus_manager/src/system_deps.rs (39-334).
-/
import Mathlib.Tactic.Common

namespace Horus.SysDeps

abbrev Text := List Char

/-- `SystemDependency`, the fields that are read.  The brew, pacman, choco and
nix names (lines 19-26) are read by nothing and left out.

Models horus_manager/src/system_deps.rs:12-37. -/
structure Dep where
  feature : Text
  apt : List Text
  devices : List Text
  groups : List Text
  pkgConfig : List Text
  cmd : Text
  url : Text
deriving DecidableEq

/-- The machine: `dpkg -s` succeeds, the path exists, the groups of the user,
`pkg-config --exists` succeeds.

Models horus_manager/src/system_deps.rs:210-237. -/
structure Machine where
  installed : Text → Bool
  present : Text → Bool
  groups : List Text
  library : Text → Bool

/-- The result while it is being built: what has been looked at and what was
found missing.

Models horus_manager/src/system_deps.rs:109-123, 140-142. -/
structure Res where
  seenPkgs : List Text
  packages : List Text
  devices : List Text
  seenGroups : List Text
  groups : List Text
  libs : List Text
  cmds : List Text
  docs : List (Text × Text)

def Res.empty : Res := ⟨[], [], [], [], [], [], [], []⟩

/-- The loop over packages, and over groups: each name is looked at once.

Models horus_manager/src/system_deps.rs:150-157 and 176-183. -/
def scan (ok : Text → Bool) (seen out : List Text) : List Text → List Text × List Text
  | [] => (seen, out)
  | x :: xs =>
    if x ∈ seen then scan ok seen out xs
    else scan ok (x :: seen) (if ok x then out else out ++ [x]) xs

/-- The path looked at for a device pattern.

Models horus_manager/src/system_deps.rs:162-166 (for a name without `*` both
branches give the name itself). -/
def path (d : Text) : Text := d.map fun c => if c = '*' then '0' else c

/-- The loop over devices.

Models horus_manager/src/system_deps.rs:160-173. -/
def scanDevices (present : Text → Bool) (out : List Text) : List Text → List Text
  | [] => out
  | d :: ds =>
    if !present (path d) && !(out.contains (path d)) then scanDevices present (out ++ [path d]) ds
    else scanDevices present out ds

/-- One detected feature.

Models horus_manager/src/system_deps.rs:148-203. -/
def step (m : Machine) (r : Res) (d : Dep) : Res where
  seenPkgs := (scan m.installed r.seenPkgs r.packages d.apt).1
  packages := (scan m.installed r.seenPkgs r.packages d.apt).2
  devices := scanDevices m.present r.devices d.devices
  seenGroups := (scan (fun g => m.groups.contains g) r.seenGroups r.groups d.groups).1
  groups := (scan (fun g => m.groups.contains g) r.seenGroups r.groups d.groups).2
  libs := r.libs ++ d.pkgConfig.filter fun n => !m.library n
  cmds := if d.cmd = [] ∨ d.cmd ∈ r.cmds then r.cmds else r.cmds ++ [d.cmd]
  docs := r.docs ++ [(d.feature, d.url)]

/-- `check_dependencies` against a table of known features.

Models horus_manager/src/system_deps.rs:138-207. -/
def run (table : List Dep) (m : Machine) (features : List Text) : Res :=
  (features.filterMap fun f => table.find? fun d => d.feature == f).foldl (step m) Res.empty

/-- `has_issues`.

Models horus_manager/src/system_deps.rs:126-130. -/
def hasIssues (r : Res) : Bool := !r.packages.isEmpty || !r.groups.isEmpty || !r.libs.isEmpty

/-- `join`. -/
def join (sep : Text) : List Text → Text
  | [] => []
  | [x] => x
  | x :: y :: ys => x ++ sep ++ join sep (y :: ys)

/-- The command under "Quick Fix - Run this command".

Models horus_manager/src/system_deps.rs:308-325. -/
def quickFix (r : Res) : Text :=
  let a := if r.packages.isEmpty then [] else "sudo apt install -y ".toList ++ join " ".toList r.packages
  if r.groups.isEmpty then a
  else (if a.isEmpty then a else a ++ " && ".toList) ++ "sudo usermod -a -G ".toList ++ join ",".toList r.groups ++ " $USER".toList

/-- A part of the printed report. -/
inductive Part
  | packages (l : List Text) | groups (l : List Text) | libs (l : List Text)
  | devices (l : List Text) | quick (cmd : Text)
deriving DecidableEq, Repr

/-- `format_dependency_report`, without heading, feature list and links.

Models horus_manager/src/system_deps.rs:240-334. -/
def report (r : Res) : List Part :=
  (if r.packages.isEmpty then [] else [.packages r.packages]) ++
  (if r.groups.isEmpty then [] else [.groups r.groups]) ++
  (if r.libs.isEmpty then [] else [.libs r.libs]) ++
  (if r.devices.isEmpty then [] else [.devices r.devices]) ++
  (if hasIssues r then [.quick (quickFix r)] else [])

/-- The table, with the two features that need anything.

Models horus_manager/src/system_deps.rs:45-106. -/
def gilrs : Dep := ⟨"gilrs".toList, ["libudev-dev".toList], ["/dev/input/js0".toList, "/dev/input/event0".toList], ["input".toList], ["libudev".toList], "sudo apt install -y libudev-dev && sudo usermod -a -G input $USER".toList, "https://docs.rs/gilrs/latest/gilrs/".toList⟩
/-- The OpenCV entry. Models horus_manager/src/system_deps.rs:62-75. -/
def opencv : Dep := ⟨"opencv-backend".toList, ["libopencv-dev".toList, "pkg-config".toList, "libclang-dev".toList], ["/dev/video0".toList], ["video".toList], ["opencv4".toList, "opencv".toList], "sudo apt install -y libopencv-dev pkg-config libclang-dev && sudo usermod -a -G video $USER".toList, "https://docs.opencv.org/master/".toList⟩
/-- The ONNX entry. Models horus_manager/src/system_deps.rs:77-90. -/
def onnx : Dep := ⟨"onnx".toList, [], [], [], [], "# ONNX Runtime is downloaded automatically by the ort crate".toList, "https://onnxruntime.ai/".toList⟩
/-- The TFLite entry. Models horus_manager/src/system_deps.rs:92-105. -/
def tflite : Dep := ⟨"tflite-inference".toList, [], [], [], [], "# TFLite is bundled with the tflite crate".toList, "https://www.tensorflow.org/lite".toList⟩
/-- `SYSTEM_DEPS`. Models horus_manager/src/system_deps.rs:45-106. -/
def table : List Dep := [gilrs, opencv, onnx, tflite]

/-! ### Specification -/

/-- The entry a feature name has in the table: the first one of that name. -/
def Entry (t : List Dep) (f : Text) (d : Dep) : Prop := t.find? (fun d => d.feature == f) = some d

/-- Something is needed (through field `g`) by one of the features. -/
def Needed (t : List Dep) (fs : List Text) (g : Dep → List Text) (x : Text) : Prop :=
  ∃ f ∈ fs, ∃ d, Entry t f d ∧ x ∈ g d

/-! ### Lemmas -/

theorem scan_spec (ok : Text → Bool) (xs : List Text) : ∀ (seen out : List Text), out.Nodup →
    (∀ x, x ∈ out ↔ x ∈ seen ∧ ok x = false) →
    (scan ok seen out xs).2.Nodup ∧
    (∀ x, x ∈ (scan ok seen out xs).1 ↔ x ∈ seen ∨ x ∈ xs) ∧
    (∀ x, x ∈ (scan ok seen out xs).2 ↔ x ∈ (scan ok seen out xs).1 ∧ ok x = false) := by
  induction xs with
  | nil => intro seen out hn hi; exact ⟨hn, by simp [scan], by simpa [scan] using hi⟩
  | cons y ys ih =>
    intro seen out hn hi
    by_cases hy : y ∈ seen
    · simp only [scan, hy, if_true]
      obtain ⟨h1, h2, h3⟩ := ih seen out hn hi
      refine ⟨h1, fun x => ?_, h3⟩
      rw [h2 x, List.mem_cons]
      constructor
      · rintro (h | h)
        · exact Or.inl h
        · exact Or.inr (Or.inr h)
      · rintro (h | rfl | h)
        · exact Or.inl h
        · exact Or.inl hy
        · exact Or.inr h
    · have hyo : y ∉ out := fun h => hy ((hi y).1 h).1
      by_cases hk : ok y = true
      · simp only [scan, hy, if_false, hk, if_true]
        obtain ⟨h1, h2, h3⟩ := ih (y :: seen) out hn (fun x => by
          rw [hi x, List.mem_cons]
          constructor
          · rintro ⟨h, h'⟩; exact ⟨Or.inr h, h'⟩
          · rintro ⟨rfl | h, h'⟩
            · rw [hk] at h'; exact absurd h' (by simp)
            · exact ⟨h, h'⟩)
        refine ⟨h1, fun x => ?_, h3⟩
        rw [h2 x]; simp only [List.mem_cons]; tauto
      · simp only [scan, hy, if_false, hk, Bool.false_eq_true]
        have hf : ok y = false := by simpa using hk
        obtain ⟨h1, h2, h3⟩ := ih (y :: seen) (out ++ [y])
          (List.nodup_append.2 ⟨hn, by simp, fun a ha b hb => by
            rw [List.mem_singleton] at hb; rw [hb]; rintro rfl; exact hyo ha⟩)
          (fun x => by
            rw [List.mem_append, hi x, List.mem_singleton, List.mem_cons]
            constructor
            · rintro (⟨h, h'⟩ | rfl)
              · exact ⟨Or.inr h, h'⟩
              · exact ⟨Or.inl rfl, hf⟩
            · rintro ⟨rfl | h, h'⟩
              · exact Or.inr rfl
              · exact Or.inl ⟨h, h'⟩)
        refine ⟨h1, fun x => ?_, h3⟩
        rw [h2 x]; simp only [List.mem_cons]; tauto

theorem scanDevices_spec (p : Text → Bool) (ds : List Text) : ∀ out : List Text, out.Nodup →
    (scanDevices p out ds).Nodup ∧
    ∀ x, x ∈ scanDevices p out ds ↔ x ∈ out ∨ (x ∈ ds.map path ∧ p x = false) := by
  induction ds with
  | nil => intro out hn; exact ⟨hn, by simp [scanDevices]⟩
  | cons d ds ih =>
    intro out hn
    by_cases hp : p (path d) = true
    · have : scanDevices p out (d :: ds) = scanDevices p out ds := by simp [scanDevices, hp]
      rw [this]
      refine ⟨(ih out hn).1, fun x => ?_⟩
      rw [(ih out hn).2 x, List.map_cons, List.mem_cons]
      constructor
      · rintro (h | ⟨h, h'⟩)
        · exact Or.inl h
        · exact Or.inr ⟨Or.inr h, h'⟩
      · rintro (h | ⟨rfl | h, h'⟩)
        · exact Or.inl h
        · rw [hp] at h'; exact absurd h' (by simp)
        · exact Or.inr ⟨h, h'⟩
    · have hf : p (path d) = false := by simpa using hp
      by_cases ho : path d ∈ out
      · have : scanDevices p out (d :: ds) = scanDevices p out ds := by simp [scanDevices, ho]
        rw [this]
        refine ⟨(ih out hn).1, fun x => ?_⟩
        rw [(ih out hn).2 x, List.map_cons, List.mem_cons]
        constructor
        · rintro (h | ⟨h, h'⟩)
          · exact Or.inl h
          · exact Or.inr ⟨Or.inr h, h'⟩
        · rintro (h | ⟨rfl | h, h'⟩)
          · exact Or.inl h
          · exact Or.inl ho
          · exact Or.inr ⟨h, h'⟩
      · have : scanDevices p out (d :: ds) = scanDevices p (out ++ [path d]) ds := by
          simp [scanDevices, hf, ho]
        rw [this]
        have hn' : (out ++ [path d]).Nodup :=
          List.nodup_append.2 ⟨hn, by simp, fun a ha b hb => by
            rw [List.mem_singleton] at hb; rw [hb]; rintro rfl; exact ho ha⟩
        refine ⟨(ih _ hn').1, fun x => ?_⟩
        rw [(ih _ hn').2 x, List.map_cons, List.mem_cons, List.mem_append, List.mem_singleton]
        constructor
        · rintro ((h | rfl) | ⟨h, h'⟩)
          · exact Or.inl h
          · exact Or.inr ⟨Or.inl rfl, hf⟩
          · exact Or.inr ⟨Or.inr h, h'⟩
        · rintro (h | ⟨rfl | h, h'⟩)
          · exact Or.inl (Or.inl h)
          · exact Or.inl (Or.inr rfl)
          · exact Or.inr ⟨h, h'⟩

/-- What holds of the result after the entries `ds`. -/
structure Inv (m : Machine) (ds : List Dep) (r : Res) : Prop where
  pkgsNodup : r.packages.Nodup
  seenPkgs : ∀ x, x ∈ r.seenPkgs ↔ ∃ d ∈ ds, x ∈ d.apt
  pkgs : ∀ x, x ∈ r.packages ↔ x ∈ r.seenPkgs ∧ m.installed x = false
  devNodup : r.devices.Nodup
  devs : ∀ x, x ∈ r.devices ↔ (∃ d ∈ ds, x ∈ d.devices.map path) ∧ m.present x = false
  grpNodup : r.groups.Nodup
  seenGrps : ∀ x, x ∈ r.seenGroups ↔ ∃ d ∈ ds, x ∈ d.groups
  grps : ∀ x, x ∈ r.groups ↔ x ∈ r.seenGroups ∧ m.groups.contains x = false
  libs : ∀ x, x ∈ r.libs ↔ (∃ d ∈ ds, x ∈ d.pkgConfig) ∧ m.library x = false
  docs : r.docs = ds.map fun d => (d.feature, d.url)
  cmdNodup : r.cmds.Nodup
  cmds : ∀ x, x ∈ r.cmds ↔ x ≠ [] ∧ ∃ d ∈ ds, d.cmd = x

theorem inv_empty (m : Machine) : Inv m [] Res.empty := by
  constructor <;> simp [Res.empty]

theorem inv_step (m : Machine) (ds : List Dep) (r : Res) (d : Dep) (h : Inv m ds r) :
    Inv m (ds ++ [d]) (step m r d) := by
  obtain ⟨p1, p2, p3⟩ := scan_spec m.installed d.apt r.seenPkgs r.packages h.pkgsNodup h.pkgs
  obtain ⟨g1, g2, g3⟩ := scan_spec (fun g => m.groups.contains g) d.groups r.seenGroups r.groups
    h.grpNodup h.grps
  obtain ⟨d1, d2⟩ := scanDevices_spec m.present d.devices r.devices h.devNodup
  have ex : ∀ (P : Dep → Prop), (∃ e ∈ ds ++ [d], P e) ↔ (∃ e ∈ ds, P e) ∨ P d := by
    intro P
    constructor
    · rintro ⟨e, he, hp⟩
      rcases List.mem_append.1 he with he | he
      · exact Or.inl ⟨e, he, hp⟩
      · rw [List.mem_singleton.1 he] at hp; exact Or.inr hp
    · rintro (⟨e, he, hp⟩ | hp)
      · exact ⟨e, List.mem_append_left _ he, hp⟩
      · exact ⟨d, by simp, hp⟩
  refine ⟨p1, fun x => ?_, p3, d1, fun x => ?_, g1, fun x => ?_, g3, fun x => ?_, ?_, ?_, fun x => ?_⟩
  · rw [ex, ← h.seenPkgs]; exact p2 x
  · rw [ex]
    refine (d2 x).trans ?_
    rw [h.devs x]
    constructor
    · rintro (⟨a, b⟩ | ⟨a, b⟩)
      · exact ⟨Or.inl a, b⟩
      · exact ⟨Or.inr a, b⟩
    · rintro ⟨a | a, b⟩
      · exact Or.inl ⟨a, b⟩
      · exact Or.inr ⟨a, b⟩
  · rw [ex, ← h.seenGrps]; exact g2 x
  · rw [ex]
    simp only [step, List.mem_append, List.mem_filter, h.libs x, Bool.not_eq_true', or_and_right]
  · simp [step, h.docs]
  · by_cases hc : d.cmd = [] ∨ d.cmd ∈ r.cmds
    · simpa [step, hc] using h.cmdNodup
    · simp only [step, hc, if_false]
      exact List.nodup_append.2 ⟨h.cmdNodup, by simp, fun a ha b hb => by
        rw [List.mem_singleton] at hb; rw [hb]; rintro rfl; exact hc (Or.inr ha)⟩
  · rw [ex]
    by_cases hc : d.cmd = [] ∨ d.cmd ∈ r.cmds
    · simp only [step, hc, if_true]
      rw [h.cmds x]
      constructor
      · rintro ⟨h1, h2⟩; exact ⟨h1, Or.inl h2⟩
      · rintro ⟨h1, h2 | rfl⟩
        · exact ⟨h1, h2⟩
        · rcases hc with hc | hc
          · exact absurd hc h1
          · exact (h.cmds _).1 hc
    · simp only [step, hc, if_false, List.mem_append, List.mem_singleton]
      rw [h.cmds x]
      constructor
      · rintro (⟨h1, h2⟩ | rfl)
        · exact ⟨h1, Or.inl h2⟩
        · exact ⟨fun e => hc (Or.inl e), Or.inr rfl⟩
      · rintro ⟨h1, h2 | rfl⟩
        · exact Or.inl ⟨h1, h2⟩
        · exact Or.inr rfl

theorem inv_fold (m : Machine) (es : List Dep) : ∀ (ds : List Dep) (r : Res), Inv m ds r →
    Inv m (ds ++ es) (es.foldl (step m) r) := by
  induction es with
  | nil => intro ds r h; simpa using h
  | cons e es ih =>
    intro ds r h
    have := ih (ds ++ [e]) (step m r e) (inv_step m ds r e h)
    simpa using this

theorem inv_run (t : List Dep) (m : Machine) (fs : List Text) :
    Inv m (fs.filterMap fun f => t.find? fun d => d.feature == f) (run t m fs) := by
  simpa [run] using inv_fold m _ [] Res.empty (inv_empty m)

theorem needed_iff (t : List Dep) (fs : List Text) (g : Dep → List Text) (x : Text) :
    (∃ d ∈ fs.filterMap (fun f => t.find? fun d => d.feature == f), x ∈ g d) ↔
      Needed t fs g x := by
  simp only [List.mem_filterMap, Needed, Entry]
  constructor
  · rintro ⟨d, ⟨f, hf, hd⟩, hx⟩; exact ⟨f, hf, d, hd, hx⟩
  · rintro ⟨f, hf, d, hd, hx⟩; exact ⟨d, ⟨f, hf, hd⟩, hx⟩

/-! ### Theorems -/

/-- A package is reported exactly when a detected feature needs it and it is
not installed; none is reported twice. -/
theorem packages_exact (t : List Dep) (m : Machine) (fs : List Text) :
    (run t m fs).packages.Nodup ∧
    ∀ x, x ∈ (run t m fs).packages ↔ Needed t fs Dep.apt x ∧ m.installed x = false := by
  have h := inv_run t m fs
  refine ⟨h.pkgsNodup, fun x => ?_⟩
  rw [h.pkgs, h.seenPkgs, needed_iff]

/-- A group is reported exactly when a detected feature needs it and the user
is not in it; none is reported twice. -/
theorem groups_exact (t : List Dep) (m : Machine) (fs : List Text) :
    (run t m fs).groups.Nodup ∧
    ∀ x, x ∈ (run t m fs).groups ↔ Needed t fs Dep.groups x ∧ x ∉ m.groups := by
  have h := inv_run t m fs
  refine ⟨h.grpNodup, fun x => ?_⟩
  rw [h.grps, h.seenGrps, needed_iff]
  simp

/-- A device is reported exactly when it is the path of a pattern some detected
feature lists and does not exist; none is reported twice. -/
theorem devices_exact (t : List Dep) (m : Machine) (fs : List Text) :
    (run t m fs).devices.Nodup ∧
    ∀ x, x ∈ (run t m fs).devices ↔
      Needed t fs (fun d => d.devices.map path) x ∧ m.present x = false := by
  have h := inv_run t m fs
  refine ⟨h.devNodup, fun x => ?_⟩
  rw [h.devs, needed_iff t fs fun d => d.devices.map path]

/-- A library name is reported exactly when a detected feature lists it and
pkg-config does not know it. -/
theorem libs_exact (t : List Dep) (m : Machine) (fs : List Text) (x : Text) :
    x ∈ (run t m fs).libs ↔ Needed t fs Dep.pkgConfig x ∧ m.library x = false := by
  rw [(inv_run t m fs).libs, needed_iff]

/-- Feature names that are not in the table change nothing. -/
theorem unknown_ignored (t : List Dep) (m : Machine) (fs gs : List Text) (f : Text)
    (h : ∀ d ∈ t, d.feature ≠ f) : run t m (fs ++ f :: gs) = run t m (fs ++ gs) := by
  have : t.find? (fun d => d.feature == f) = none := by
    rw [List.find?_eq_none]
    intro d hd
    simpa using h d hd
  simp [run, List.filterMap_append, this]

/-- Nothing is printed exactly when every package, group, library and device
the detected features list is there. -/
theorem silent_iff (t : List Dep) (m : Machine) (fs : List Text) :
    report (run t m fs) = [] ↔
      (∀ x, Needed t fs Dep.apt x → m.installed x = true) ∧
      (∀ x, Needed t fs Dep.groups x → x ∈ m.groups) ∧
      (∀ x, Needed t fs Dep.pkgConfig x → m.library x = true) ∧
      (∀ x, Needed t fs (fun d => d.devices.map path) x → m.present x = true) := by
  have hr : report (run t m fs) = [] ↔ (run t m fs).packages = [] ∧ (run t m fs).groups = [] ∧
      (run t m fs).libs = [] ∧ (run t m fs).devices = [] := by
    cases h1 : (run t m fs).packages <;> cases h2 : (run t m fs).groups <;>
      cases h3 : (run t m fs).libs <;> cases h4 : (run t m fs).devices <;>
      simp [report, hasIssues, h1, h2, h3, h4]
  rw [hr]
  simp only [List.eq_nil_iff_forall_not_mem, (packages_exact t m fs).2, (groups_exact t m fs).2,
    libs_exact, (devices_exact t m fs).2, not_and, Bool.not_eq_false, not_not]

/-- The quick fix installs every missing package and joins every missing group:
with both missing it is the one command followed by the other. -/
theorem quick_both (r : Res) (hp : r.packages ≠ []) (hg : r.groups ≠ []) :
    quickFix r = "sudo apt install -y ".toList ++ join " ".toList r.packages ++ " && ".toList ++
      "sudo usermod -a -G ".toList ++ join ",".toList r.groups ++ " $USER".toList := by
  have h1 : r.packages.isEmpty = false := by simpa using hp
  have h2 : r.groups.isEmpty = false := by simpa using hg
  simp [quickFix, h1, h2]

/-- **Finding.**  When only libraries are missing, the quick fix to be run is
the empty command. -/
theorem quick_empty (r : Res) (hp : r.packages = []) (hg : r.groups = []) (hl : r.libs ≠ []) :
    Part.quick [] ∈ report r := by
  have h : r.libs.isEmpty = false := by simpa using hl
  simp [report, hasIssues, quickFix, hp, hg, h]

theorem opencv_entry : Entry table "opencv-backend".toList opencv := by
  unfold Entry
  decide +kernel

/-- **Finding.**  The two pkg-config names of OpenCV are alternatives (version 4
has `opencv4`, version 3 `opencv`) but both are asked for: on a machine that
has one of them every build with OpenCV reports a missing library. -/
theorem opencv_never_clean (m : Machine) (fs : List Text)
    (hf : "opencv-backend".toList ∈ fs)
    (h : m.library "opencv4".toList = false ∨ m.library "opencv".toList = false) :
    (run table m fs).libs ≠ [] := by
  have hn : ∀ x ∈ opencv.pkgConfig, Needed table fs Dep.pkgConfig x := fun x hx =>
    ⟨_, hf, opencv, opencv_entry, hx⟩
  rcases h with h | h
  · exact List.ne_nil_of_mem ((libs_exact _ _ _ _).2 ⟨hn _ List.mem_cons_self, h⟩)
  · exact List.ne_nil_of_mem ((libs_exact _ _ _ _).2 ⟨hn _ (List.mem_cons_of_mem _ List.mem_cons_self), h⟩)

/-- **Finding.**  Where `dpkg` cannot be run (Fedora, Arch, macOS) every package
a feature needs is reported missing, installed or not. -/
theorem no_dpkg_all_missing (t : List Dep) (m : Machine) (fs : List Text)
    (h : ∀ x, m.installed x = false) (x : Text) (hx : Needed t fs Dep.apt x) :
    x ∈ (run t m fs).packages := ((packages_exact t m fs).2 x).2 ⟨hx, h x⟩

/-- Links and install commands come from the detected features only, links one
per detected feature in order. -/
theorem links_exact (t : List Dep) (m : Machine) (fs : List Text) :
    (run t m fs).docs =
      (fs.filterMap fun f => t.find? fun d => d.feature == f).map fun d => (d.feature, d.url) :=
  (inv_run t m fs).docs

theorem commands_exact (t : List Dep) (m : Machine) (fs : List Text) :
    (run t m fs).cmds.Nodup ∧
    ∀ x, x ∈ (run t m fs).cmds ↔ x ≠ [] ∧ ∃ f ∈ fs, ∃ d, Entry t f d ∧ d.cmd = x := by
  refine ⟨(inv_run t m fs).cmdNodup, fun x => ?_⟩
  rw [(inv_run t m fs).cmds]
  simp only [List.mem_filterMap, Entry]
  constructor
  · rintro ⟨h, d, ⟨f, hf, hd⟩, hx⟩; exact ⟨h, f, hf, d, hd, hx⟩
  · rintro ⟨h, f, hf, d, hd, hx⟩; exact ⟨h, d, ⟨f, hf, hd⟩, hx⟩

/-! ### Cases -/

/-- An up-to-date Debian machine with OpenCV 4 and a camera. -/
def box : Machine := ⟨fun _ => true, fun _ => true, ["video".toList], fun n => n == "opencv4".toList⟩

example : report (run table box ["opencv-backend".toList, "x".toList]) = [.libs ["opencv".toList], .quick []] := by decide +kernel
example : report (run table ⟨fun _ => false, fun _ => true, [], fun _ => true⟩ ["gilrs".toList, "gilrs".toList]) = [.packages ["libudev-dev".toList], .groups ["input".toList], .quick "sudo apt install -y libudev-dev && sudo usermod -a -G input $USER".toList] := by decide +kernel
example : path "/dev/i2c-*".toList = "/dev/i2c-0".toList := by decide +kernel

end Horus.SysDeps
