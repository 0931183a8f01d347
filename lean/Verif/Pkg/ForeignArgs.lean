import Mathlib.Tactic.Common
/-
Model of the package managers that `horus` runs with names it was given by others: the system packages and Python
requirements in the metadata of a registry package, and the system packages in the `horus.toml` of a C++ project.

Sources: /repo/horus_manager/src/registry/helpers.rs 226-444, /repo/horus_manager/src/registry/install.rs 1313-1466
and 2543-2592, /repo/horus_manager/src/commands/run/run_cpp.rs 545-673, /repo/horus_manager/src/cmake_gen.rs 530-537.

A command is its program and its arguments. What a package says about being installed, which package manager is there
and what is typed at the prompt are given. The tests for a package manager (`apt --version`) pass no names and are left
out. Texts are lists of characters; the limits of 128 and 256 bytes are on characters here, which changes nothing
because any character of more than one byte is refused. The printed text is not modelled.
-/
namespace Horus.ForeignArgs

abbrev Text := List Char

/-- `is_ascii_alphanumeric` (library). -/
def alnum (c : Char) : Bool :=
  ('a' ≤ c && c ≤ 'z') || ('A' ≤ c && c ≤ 'Z') || ('0' ≤ c && c ≤ '9')

/-- `is_safe_system_package_name` (helpers.rs 283-292). -/
def safeName (n : Text) : Bool :=
  if n.isEmpty || 128 < n.length then false
  else if n.head? == some '-' || n.head? == some '.' then false
  else n.all fun c => alnum c || c == '.' || c == '+' || c == '-' || c == '_'

/-- The package managers (helpers.rs 227-252). -/
inductive Manager
  | apt | dnf | pacman | brew | apk
  deriving DecidableEq, Repr

/-- A program that is run. -/
structure Run where
  prog : Text
  args : List Text
  deriving DecidableEq, Repr

/-- `is_system_package_installed` (helpers.rs 255-268): the question. -/
def probe (m : Manager) (pkg : Text) : Run :=
  match m with
  | .apt => { prog := "dpkg".toList, args := ["-s".toList, pkg] }
  | .dnf => { prog := "rpm".toList, args := ["-q".toList, pkg] }
  | .pacman => { prog := "pacman".toList, args := ["-Q".toList, pkg] }
  | .brew => { prog := "brew".toList, args := ["list".toList, pkg] }
  | .apk => { prog := "apk".toList, args := ["info".toList, "-e".toList, pkg] }

/-- The name and the words of the install command (helpers.rs 232-250, 362). -/
def words : Manager → List Text
  | .apt => ["apt".toList, "install".toList, "-y".toList]
  | .dnf => ["dnf".toList, "install".toList, "-y".toList]
  | .pacman => ["pacman".toList, "-S".toList, "--noconfirm".toList]
  | .brew => ["brew".toList, "install".toList]
  | .apk => ["apk".toList, "add".toList]

/-- helpers.rs 400-413: all but `brew` are run by `sudo`. -/
def install (m : Manager) (pkgs : List Text) : Run :=
  match m with
  | .brew => { prog := "brew".toList, args := ["install".toList, "--".toList] ++ pkgs }
  | m => { prog := "sudo".toList, args := words m ++ ["--".toList] ++ pkgs }

/-- What was typed at a prompt: `none` is an error, an empty line and the end of the input are both empty. The line is
trimmed and in lower case (helpers.rs 391-393, run_cpp.rs 614-616). -/
abbrev Typed := Option Text

/-- helpers.rs 392-394. -/
def yesByDefault : Typed → Bool
  | none => false
  | some t => t.isEmpty || t == "y".toList || t == "yes".toList

/-- run_cpp.rs 615-616. -/
def noByDefault : Typed → Bool
  | none => false
  | some t => t == "y".toList || t == "yes".toList

/-- `handle_system_dependencies` (helpers.rs 295-444): the programs run, in order. -/
def system (mgr : Option Manager) (have' : Text → Bool) (typed : Typed) (deps : List Text) : List Run :=
  if deps.any (fun d => !safeName d) then []
  else match mgr with
    | none => []
    | some m =>
      let missing := deps.filter fun d => !have' d
      if missing.isEmpty then deps.map (probe m)
      else deps.map (probe m) ++ deps.map (probe m) ++ (if yesByDefault typed then [install m missing] else [])

/-- The characters of a requirement (install.rs 2569-2589). -/
def reqChar (c : Char) : Bool :=
  alnum c || ['.', '-', '_', '[', ']', ',', '=', '<', '>', '!', '~', '*', '+', ' ', ';', '\'', '"'].contains c

/-- `str::trim` (library); `ws` is `char::is_whitespace`. -/
def trim (ws : Char → Bool) (s : Text) : Text := ((s.dropWhile ws).reverse.dropWhile ws).reverse

/-- Whether a text occurs in another (library). -/
def holds (p : Text) : Text → Bool
  | [] => p.isEmpty
  | c :: s => p.isPrefixOf (c :: s) || holds p s

/-- `is_safe_python_requirement` (install.rs 2551-2592). -/
def safeReq (ws : Char → Bool) (spec : Text) : Bool :=
  let s := trim ws spec
  if s.isEmpty || 256 < s.length then false
  else if !(s.head?.any alnum) then false
  else if holds "://".toList s then false
  else s.all reqChar && !s.contains '/' && !s.contains '\\'

/-- One requirement (install.rs 1415-1418). -/
def pip (dep : Text) : Run := { prog := "pip3".toList, args := ["install".toList, "--quiet".toList, "--".toList, dep] }

/-- The loop over the requirements (install.rs 1401-1455): the programs run, and those that failed. -/
def python (ws : Char → Bool) (works : Text → Bool) (deps : List Text) : List Run × List Text :=
  ((deps.filter (safeReq ws)).map pip, deps.filter fun d => !safeReq ws d || !works d)

/-- `apply_driver_requirements` from the Python requirements on (install.rs 1385-1466): the programs run, and whether it
ends well. -/
def requirements (ws : Char → Bool) (works : Text → Bool) (mgr : Option Manager) (have' : Text → Bool) (typed : Typed)
    (py sys : List Text) : List Run × Bool :=
  let p := python ws works py
  if p.2.isEmpty then (p.1 ++ system mgr have' typed sys, true) else (p.1, false)

/-- A dependency in `horus.toml`, as far as it matters here (run_cpp.rs 560-585): simple, or with the keys `apt`, `lang`
(whether it is "cpp"), `source` (whether it is "system") and `cmake_package` (whether it is there). -/
inductive Dep
  | simple
  | detailed (apt : Option Text) (cpp system cmake : Bool)
  deriving DecidableEq, Repr

/-- `apt_package_for` (cmake_gen.rs 530-537); `known` is the table of known names. -/
def aptFor (known : Text → Option Text) (name : Text) : Dep → Option Text
  | .detailed (some a) _ _ _ => some a
  | _ => known name

/-- The system package of a C++ dependency (run_cpp.rs 561-580). -/
def cppPkg (known : Text → Option Text) (e : Text × Dep) : Option Text :=
  match aptFor known e.1 e.2 with
  | none => none
  | some a =>
    match e.2 with
    | .simple => if (known e.1).isSome then some a else none
    | .detailed _ cpp sys cmake => if cpp || sys || cmake then some a else none

/-- `ensure_system_deps` (run_cpp.rs 550-662): the programs run. `auto` is HORUS_AUTO_INSTALL. -/
def cpp (known : Text → Option Text) (have' : Text → Bool) (auto : Bool) (typed : Typed) (deps : List (Text × Dep)) : List Run :=
  let pkgs := deps.filterMap (cppPkg known)
  let missing := pkgs.filter fun d => !have' d
  pkgs.map (fun p => { prog := "dpkg".toList, args := ["-l".toList, p] }) ++
    (if missing.isEmpty then [] else if auto || noByDefault typed then [{ prog := "sudo".toList, args := ["apt".toList, "install".toList, "-y".toList] ++ missing }] else [])

/-! ### Specification: how the programs read their arguments -/

/-- What is read as an option: every argument before the first `--` that begins with `-`. -/
def options (args : List Text) : List Text := (args.takeWhile (· != "--".toList)).filter fun a => a.head? == some '-'

/-- The options written in the source. -/
def own : List Text := ["-s".toList, "-q".toList, "-Q".toList, "-e".toList, "-y".toList, "-S".toList, "--noconfirm".toList, "--quiet".toList]

/-- apt-get(8), `install`: "If a hyphen is appended to the package name (with no intervening space), the identified
package will be removed if it is installed": the packages removed by the operands, unless one of that very name exists. -/
def removed (exists' : Text → Bool) (operands : List Text) : List Text :=
  operands.filterMap fun o => if o.getLast? = some '-' ∧ exists' o = false then some o.dropLast else none

/-! ### Proofs -/

theorem safe_head (n : Text) (h : safeName n = true) : n.head? ≠ some '-' ∧ n.head? ≠ some '.' ∧ n ≠ [] := by
  unfold safeName at h
  split at h
  · cases h
  · split at h
    · cases h
    · rename_i h1 h2
      simp only [Bool.or_eq_true, beq_iff_eq, not_or, List.isEmpty_iff, decide_eq_true_eq] at h1 h2
      exact ⟨h2.1, h2.2, h1.1⟩

theorem options_mem {args : List Text} {o : Text} (h : o ∈ options args) : o ∈ args ∧ o.head? = some '-' := by
  unfold options at h
  rw [List.mem_filter] at h
  exact ⟨(List.takeWhile_sublist _).subset h.1, by simpa using h.2⟩

theorem probe_options (m : Manager) (d : Text) (hd : d.head? ≠ some '-') : ∀ o ∈ options (probe m d).args, o ∈ own := by
  intro o ho
  obtain ⟨h1, h2⟩ := options_mem ho
  cases m <;> simp only [probe, List.mem_cons, List.not_mem_nil, or_false] at h1 <;>
    rcases h1 with rfl | h1 <;> (try (simp [own]; done)) <;>
    (try (rcases h1 with rfl | rfl)) <;> (try subst h1) <;> first | (exact absurd h2 hd) | (simp [own]; done) | (simp at h2)

theorem install_options (m : Manager) (l : List Text) : ∀ o ∈ options (install m l).args, o ∈ own := by
  intro o ho
  unfold options at ho
  cases m <;> simp [install, words] at ho <;> simp [own] <;> tauto

/-- The programs a package can cause to be run by its system packages. -/
theorem system_runs {mgr : Option Manager} {have' : Text → Bool} {typed : Typed} {deps : List Text} {r : Run}
    (h : r ∈ system mgr have' typed deps) : (∀ d ∈ deps, safeName d = true) ∧ ∃ m, mgr = some m ∧
      ((∃ d ∈ deps, r = probe m d) ∨ (yesByDefault typed = true ∧ r = install m (deps.filter fun d => !have' d) ∧ ∃ d ∈ deps, have' d = false)) := by
  unfold system at h
  split at h
  · cases h
  · rename_i hs
    simp only [List.any_eq_true, Bool.not_eq_true', not_exists, not_and, Bool.not_eq_false] at hs
    refine ⟨hs, ?_⟩
    cases mgr with
    | none => cases h
    | some m =>
      refine ⟨m, rfl, ?_⟩
      dsimp only at h
      split at h
      · obtain ⟨d, hd, rfl⟩ := List.mem_map.1 h
        exact Or.inl ⟨d, hd, rfl⟩
      · rename_i hm
        rw [List.mem_append, List.mem_append] at h
        rcases h with (h | h) | h
        · obtain ⟨d, hd, rfl⟩ := List.mem_map.1 h
          exact Or.inl ⟨d, hd, rfl⟩
        · obtain ⟨d, hd, rfl⟩ := List.mem_map.1 h
          exact Or.inl ⟨d, hd, rfl⟩
        · split at h
          · rename_i hy
            rw [List.mem_singleton] at h
            refine Or.inr ⟨hy, h, ?_⟩
            by_contra hc
            push Not at hc
            apply hm
            rw [List.isEmpty_iff, List.filter_eq_nil_iff]
            intro d hd
            have := hc d hd
            simp at this
            simp [this]
          · cases h

theorem safe_req_head (ws : Char → Bool) (hw : ws '-' = false) (d : Text) (h : safeReq ws d = true) : d.head? ≠ some '-' := by
  intro hd
  cases d with
  | nil => cases hd
  | cons c d =>
    simp only [List.head?_cons, Option.some.injEq] at hd
    subst hd
    unfold safeReq at h
    dsimp only at h
    split at h
    · cases h
    · split at h
      · cases h
      · rename_i h2
        simp only [Bool.not_eq_true', Bool.not_eq_false] at h2
        have ht : (trim ws ('-' :: d)).head? = some '-' := by
          unfold trim
          rw [List.dropWhile_cons_of_neg (by simp [hw])]
          rw [List.head?_reverse, List.reverse_cons]
          have : ∀ l : Text, (List.dropWhile ws (l ++ ['-'])).getLast? = some '-' := by
            intro l
            induction l with
            | nil => simp [List.dropWhile_cons, hw]
            | cons x l ih =>
              rw [List.cons_append, List.dropWhile_cons]
              split
              · exact ih
              · rw [← List.cons_append, List.getLast?_append]; rfl
          exact this _
        rw [ht] at h2
        revert h2
        decide

/-- **Nothing a package says is read as an option.** Whatever system packages and Python requirements its metadata
lists, whichever package manager is there, whatever is installed and whatever is typed, every option of every program
run is one written in the source. -/
theorem no_foreign_option (ws : Char → Bool) (works : Text → Bool) (mgr : Option Manager) (have' : Text → Bool) (typed : Typed)
    (py sys : List Text) : ∀ r ∈ (requirements ws works mgr have' typed py sys).1, ∀ o ∈ options r.args, o ∈ own := by
  have hp : ∀ r ∈ (python ws works py).1, ∀ o ∈ options r.args, o ∈ own := by
    intro r hr o ho
    unfold python at hr
    obtain ⟨d, hd, rfl⟩ := List.mem_map.1 hr
    simp [options, pip] at ho
    simp [own, ho]
  intro r hr
  unfold requirements at hr
  dsimp only at hr
  split at hr
  · rcases List.mem_append.1 hr with hr | hr
    · exact hp r hr
    · obtain ⟨hs, m, _, ⟨d, hd, rfl⟩ | ⟨_, rfl, _⟩⟩ := system_runs hr
      · exact probe_options m d (safe_head d (hs d hd)).1
      · exact install_options m _
  · exact hp r hr

/-- **A text that begins with `-` is not passed on at all**: as a requirement it is never given to `pip3` and the
installation fails; as a system package it stops them all. -/
theorem dash_refused (ws : Char → Bool) (hw : ws '-' = false) (works : Text → Bool) (mgr : Option Manager) (have' : Text → Bool) (typed : Typed)
    (py sys : List Text) (d : Text) (hd : d.head? = some '-') :
    (d ∈ sys → system mgr have' typed sys = []) ∧
    (d ∈ py → (requirements ws works mgr have' typed py sys).2 = false ∧ pip d ∉ (requirements ws works mgr have' typed py sys).1) := by
  constructor
  · intro hm
    have hu : safeName d = false := by
      cases h : safeName d with
      | false => rfl
      | true => exact absurd hd (safe_head d h).1
    unfold system
    rw [if_pos (List.any_eq_true.2 ⟨d, hm, by simp [hu]⟩)]
  · intro hm
    have hu : safeReq ws d = false := by
      cases h : safeReq ws d with
      | false => rfl
      | true => exact absurd hd (safe_req_head ws hw d h)
    have : (py.filter fun d => !safeReq ws d || !works d).isEmpty = false := by
      rw [List.isEmpty_eq_false_iff_exists_mem]
      exact ⟨d, List.mem_filter.2 ⟨hm, by simp [hu]⟩⟩
    simp only [requirements, python, this, Bool.false_eq_true, if_false, true_and]
    intro hc
    obtain ⟨x, hx, he⟩ := List.mem_map.1 hc
    simp only [pip, Run.mk.injEq, List.cons.injEq, and_true, true_and] at he
    subst he
    rw [List.mem_filter, hu] at hx
    exact absurd hx.2 (by decide)

/-- **A requirement that is accepted names neither a place on the network nor a file**: it has no `/`, `\`, `:` or `@`. -/
theorem requirement_is_name (ws : Char → Bool) (d : Text) (h : safeReq ws d = true) :
    ∀ c ∈ trim ws d, c ≠ '/' ∧ c ≠ '\\' ∧ c ≠ ':' ∧ c ≠ '@' ∧ c ≠ '$' ∧ c ≠ '`' ∧ c ≠ '|' ∧ c ≠ '&' := by
  unfold safeReq at h
  dsimp only at h
  split at h
  · cases h
  · split at h
    · cases h
    · split at h
      · cases h
      · simp only [Bool.and_eq_true, List.all_eq_true] at h
        intro c hc
        have := h.1.1 c hc
        refine ⟨?_, ?_, ?_, ?_, ?_, ?_, ?_, ?_⟩ <;> rintro rfl <;> exact absurd this (by decide)

/-- **Without consent nothing is installed on the system**: anything but an empty answer, "y" or "yes" leaves only the
questions whether a package is there. -/
theorem no_consent_nothing (mgr : Option Manager) (have' : Text → Bool) (typed : Typed) (deps : List Text)
    (ht : ∀ t, typed = some t → t ≠ [] ∧ t ≠ "y".toList ∧ t ≠ "yes".toList) :
    ∀ r ∈ system mgr have' typed deps, r.prog ≠ "sudo".toList ∧ ∃ m, ∃ d ∈ deps, r = probe m d := by
  intro r hr
  obtain ⟨_, m, _, ⟨d, hd, rfl⟩ | ⟨hy, _, _⟩⟩ := system_runs hr
  · exact ⟨by cases m <;> simp [probe], m, d, hd, rfl⟩
  · exfalso
    cases typed with
    | none => cases hy
    | some t =>
      obtain ⟨h1, h2, h3⟩ := ht t rfl
      simp only [yesByDefault, Bool.or_eq_true, List.isEmpty_iff, beq_iff_eq] at hy
      rcases hy with (hy | hy) | hy
      exacts [h1 hy, h2 hy, h3 hy]

/-- **What is installed is what is asked for and not there**: one run, with the missing packages in their order. -/
theorem installs_missing (m : Manager) (have' : Text → Bool) (typed : Typed) (deps : List Text) (hs : ∀ d ∈ deps, safeName d = true)
    (hm : ∃ d ∈ deps, have' d = false) (hy : yesByDefault typed = true) :
    (system (some m) have' typed deps).getLast? = some (install m (deps.filter fun d => !have' d)) := by
  have h1 : deps.any (fun d => !safeName d) = false := by
    rw [List.any_eq_false]; intro d hd; simp [hs d hd]
  obtain ⟨d, hd, hf⟩ := hm
  have h2 : (deps.filter fun d => !have' d).isEmpty = false := by
    rw [List.isEmpty_eq_false_iff_exists_mem]
    exact ⟨d, List.mem_filter.2 ⟨hd, by simp [hf]⟩⟩
  unfold system
  rw [h1]
  simp [h2, hy]

/-- Nothing is run for a package manager that is not there, nor if all is installed. -/
theorem nothing_to_do (m : Manager) (have' : Text → Bool) (typed : Typed) (deps : List Text) (h : ∀ d ∈ deps, have' d = true) :
    system none have' typed deps = [] ∧ ∀ r ∈ system (some m) have' typed deps, ∃ d ∈ deps, r = probe m d := by
  constructor
  · unfold system; split <;> rfl
  · intro r hr
    obtain ⟨_, m', hm', ⟨d, hd, rfl⟩ | ⟨_, _, d, hd, hf⟩⟩ := system_runs hr
    · cases hm'; exact ⟨d, hd, rfl⟩
    · rw [h d hd] at hf; cases hf

/-- Debian's package names (Debian Policy 5.6.1): lower-case letters, digits, `+`, `-` and `.`, beginning with a letter or
digit. -/
def debian (n : Text) : Prop :=
  n ≠ [] ∧ (∀ c, n.head? = some c → alnum c = true) ∧ ∀ c ∈ n, ('a' ≤ c ∧ c ≤ 'z') ∨ ('0' ≤ c ∧ c ≤ '9') ∨ c = '+' ∨ c = '-' ∨ c = '.'

/-- **Every Debian package name of up to 128 characters is accepted.** -/
theorem debian_accepted (n : Text) (h : debian n) (hl : n.length ≤ 128) : safeName n = true := by
  obtain ⟨h0, h1, h2⟩ := h
  unfold safeName
  rw [if_neg (by simp [h0]; omega), if_neg, List.all_eq_true]
  · intro c hc
    rcases h2 c hc with h | h | rfl | rfl | rfl
    · simp [alnum, h.1, h.2]
    · simp [alnum, h.1, h.2]
    · decide
    · decide
    · decide
  · simp only [Bool.or_eq_true, beq_iff_eq, not_or]
    exact ⟨fun e => absurd (h1 _ e) (by decide), fun e => absurd (h1 _ e) (by decide)⟩

/-- Non-vacuity: two packages, one of them there. -/
example : (system (some .apt) (fun d => d == "libudev-dev".toList) (some "y".toList) ["libudev-dev".toList, "libusb-1.0-0-dev".toList]).map (·.args) =
    [["-s".toList, "libudev-dev".toList], ["-s".toList, "libusb-1.0-0-dev".toList], ["-s".toList, "libudev-dev".toList], ["-s".toList, "libusb-1.0-0-dev".toList],
     ["apt".toList, "install".toList, "-y".toList, "--".toList, "libusb-1.0-0-dev".toList]] := by decide +kernel

example : system (some .apt) (fun _ => false) (some []) ["-oDPkg::Pre-Invoke::=id".toList] = [] := by decide +kernel

example : (requirements Char.isWhitespace (fun _ => true) (some .brew) (fun _ => false) (some []) ["numpy>=1.20".toList] ["pcl".toList]).1.map (·.args) =
    [["install".toList, "--quiet".toList, "--".toList, "numpy>=1.20".toList], ["list".toList, "pcl".toList], ["list".toList, "pcl".toList],
     ["install".toList, "--".toList, "pcl".toList]] := by decide +kernel

example : debian "libusb-1.0-0-dev".toList := by unfold debian; decide +kernel

/-- **One name that is refused stops all the others**, and the installation goes on as if nothing were needed. -/
theorem one_refused_all (ws : Char → Bool) (works : Text → Bool) (mgr : Option Manager) (have' : Text → Bool) (typed : Typed) (sys : List Text) (d : Text)
    (hd : d ∈ sys) (hu : safeName d = false) : requirements ws works mgr have' typed [] sys = ([], true) := by
  have : sys.any (fun d => !safeName d) = true := List.any_eq_true.2 ⟨d, hd, by simp [hu]⟩
  simp [requirements, python, system, this]

/-- **Requirements are not all or nothing**: those that are accepted are installed although another fails, and then the
system packages are not asked for. -/
theorem python_failure (ws : Char → Bool) (works : Text → Bool) (mgr : Option Manager) (have' : Text → Bool) (typed : Typed) (py sys : List Text) (d : Text)
    (hd : d ∈ py) (hf : safeReq ws d = false ∨ works d = false) :
    requirements ws works mgr have' typed py sys = ((py.filter (safeReq ws)).map pip, false) := by
  have : (py.filter fun d => !safeReq ws d || !works d).isEmpty = false := by
    rw [List.isEmpty_eq_false_iff_exists_mem]
    exact ⟨d, List.mem_filter.2 ⟨hd, by rcases hf with hf | hf <;> simp [hf]⟩⟩
  simp [requirements, python, this]

/-- **Disagreement: the end of the input counts as consent**, so a package installed without a terminal has its system
packages installed by `sudo` unasked; for C++ dependencies it does not. -/
theorem closed_input_consents (m : Manager) (d : Text) (hs : safeName d = true) :
    install m [d] ∈ system (some m) (fun _ => false) (some []) [d] ∧ noByDefault (some []) = false := by
  refine ⟨?_, rfl⟩
  simp [system, hs, yesByDefault]

/-- **Disagreement: a package can have others removed.** A name that ends in `-` is accepted, and `apt install` removes
what stands before it: for every package there is. -/
theorem dash_removes (exists' : Text → Bool) (victim : Text) (hv : safeName victim = true) (hl : victim.length < 128) (hx : exists' (victim ++ ['-']) = false)
    (have' : Text → Bool) (hh : have' (victim ++ ['-']) = false) :
    (system (some .apt) have' (some "y".toList) [victim ++ ['-']]).getLast? =
      some { prog := "sudo".toList, args := ["apt".toList, "install".toList, "-y".toList, "--".toList, victim ++ ['-']] } ∧
    removed exists' [victim ++ ['-']] = [victim] := by
  have hs : safeName (victim ++ ['-']) = true := by
    have h0 := safe_head victim hv
    unfold safeName at hv ⊢
    split at hv
    · cases hv
    · split at hv
      · cases hv
      · rename_i h1 h2
        rw [if_neg (by simp; omega), if_neg, List.all_append, hv]
        · decide
        · cases victim with
          | nil => exact absurd rfl h0.2.2
          | cons c v => simpa using h2
  constructor
  · rw [installs_missing .apt have' _ _ (by simpa using hs) ⟨_, List.mem_singleton.2 rfl, hh⟩ (by decide)]
    simp [install, words, hh]
  · simp [removed, hx]

example : safeName "openssh-server".toList = true ∧ "openssh-server".toList.length < 128 := by decide +kernel

/-- **Disagreement: some names of packages are refused**: versions of Homebrew's formulae, formulae of a tap, and Debian's
packages for another architecture. -/
theorem real_names_refused : safeName "openssl@3".toList = false ∧ safeName "osrf/simulation/gz-sim".toList = false ∧ safeName "libc6:i386".toList = false := by
  decide +kernel

/-- **Disagreement: the `horus.toml` of a C++ project is not held to this.** The text of `apt = "..."` is passed on as it
is, with nothing before it to end the options: whatever it is, if it begins with `-` it is an option of `sudo apt
install`. -/
theorem project_option_read (known : Text → Option Text) (n a : Text) (ha : a.head? = some '-') (hd : a ≠ "--".toList) (have' : Text → Bool) (hh : have' a = false) :
    ∃ r ∈ cpp known have' true none [(n, .detailed (some a) true false false)], r.prog = "sudo".toList ∧ a ∈ options r.args := by
  refine ⟨{ prog := "sudo".toList, args := ["apt".toList, "install".toList, "-y".toList] ++ [a] }, ?_, rfl, ?_⟩
  · simp [cpp, cppPkg, aptFor, hh]
  · have h3 : ("apt".toList != "--".toList) = true ∧ ("install".toList != "--".toList) = true ∧ ("-y".toList != "--".toList) = true := by decide
    unfold options
    rw [List.mem_filter]
    refine ⟨?_, by simpa using ha⟩
    have hd' : (a != "--".toList) = true := by simpa using hd
    simp only [List.cons_append, List.nil_append, List.takeWhile_cons, h3.1, h3.2.1, h3.2.2, hd', if_true, List.mem_cons, true_or, or_true]

/-- Without `apt = "..."`, what is passed on is from the table: a project's own names never reach a command. -/
theorem table_only (known : Text → Option Text) (have' : Text → Bool) (auto : Bool) (typed : Typed) (deps : List (Text × Dep))
    (hn : ∀ e ∈ deps, ∀ a c s k, e.2 ≠ .detailed (some a) c s k) (hk : ∀ n a, known n = some a → a.head? ≠ some '-') :
    ∀ r ∈ cpp known have' auto typed deps, ∀ o ∈ options r.args, o = "-l".toList ∨ o = "-y".toList := by
  have hp : ∀ p ∈ deps.filterMap (cppPkg known), p.head? ≠ some '-' := by
    intro p hp
    obtain ⟨e, he, hx⟩ := List.mem_filterMap.1 hp
    have ha : aptFor known e.1 e.2 = some p := by
      unfold cppPkg at hx
      split at hx
      · cases hx
      · rename_i a ha
        rw [ha]
        split at hx <;> split at hx <;> first | (cases hx; done) | (injection hx with hx; rw [hx])
    unfold aptFor at ha
    split at ha
    · rename_i a c s k heq
      exact absurd heq (hn e he a c s k)
    · exact hk _ _ ha
  intro r hr o ho
  obtain ⟨h1, h2⟩ := options_mem ho
  unfold cpp at hr
  dsimp only at hr
  rcases List.mem_append.1 hr with hr | hr
  · obtain ⟨p, hpm, rfl⟩ := List.mem_map.1 hr
    simp only [List.mem_cons, List.not_mem_nil, or_false] at h1
    rcases h1 with rfl | rfl
    · exact Or.inl rfl
    · exact absurd h2 (hp _ hpm)
  · split at hr
    · cases hr
    · split at hr
      · rw [List.mem_singleton] at hr
        subst hr
        simp only [List.mem_append, List.mem_cons, List.not_mem_nil, or_false] at h1
        rcases h1 with (rfl | rfl | rfl) | h1
        · exact absurd h2 (by decide)
        · exact absurd h2 (by decide)
        · exact Or.inr rfl
        · exact absurd h2 (hp _ (List.mem_filter.1 h1).1)
      · cases hr

/-- A C++ project's packages are installed only if that was asked for in so many words. -/
theorem cpp_consent (known : Text → Option Text) (have' : Text → Bool) (typed : Typed) (deps : List (Text × Dep))
    (ht : typed ≠ some "y".toList ∧ typed ≠ some "yes".toList) : ∀ r ∈ cpp known have' false typed deps, r.prog ≠ "sudo".toList := by
  intro r hr
  unfold cpp at hr
  dsimp only at hr
  have hy : noByDefault typed = false := by
    cases typed with
    | none => rfl
    | some t =>
      simp only [noByDefault, Bool.or_eq_false_iff, beq_eq_false_iff_ne]
      exact ⟨fun e => ht.1 (by rw [e]), fun e => ht.2 (by rw [e])⟩
  rcases List.mem_append.1 hr with hr | hr
  · obtain ⟨p, _, rfl⟩ := List.mem_map.1 hr
    simp
  · rw [hy] at hr
    split at hr
    · cases hr
    · simp at hr

example : (cpp (fun n => if n = "eigen".toList then some "libeigen3-dev".toList else none) (fun _ => false) false (some "y".toList)
    [("eigen".toList, .simple), ("serde".toList, .simple), ("x".toList, .detailed (some "-oDPkg::Pre-Invoke::=id".toList) false true false)]).getLast?.map (·.args) =
    some ["apt".toList, "install".toList, "-y".toList, "libeigen3-dev".toList, "-oDPkg::Pre-Invoke::=id".toList] := by decide +kernel

end Horus.ForeignArgs
