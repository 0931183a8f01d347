import Verif.Build.PipSync
import Mathlib.Tactic.Common
/-
`horus migrate`: /repo/horus_manager/src/commands/migrate.rs.

Modelled: what is read from `Cargo.toml` (as in `NativeSync`), `pyproject.toml` and `CMakeLists.txt`, how it
is put together with `horus.toml`, and the order in which files are moved and written, so that the command
may stop after any of them.
Simplified: TOML itself is not parsed (a file that does not parse stops the command before it has changed
anything); the map of dependencies is a list in which the first entry of a name counts; `cmake_package`,
`lang`, `workspace` are left out; letters are lowered as ASCII; renames succeed or stop the command.
-/
namespace Horus.Migrate
open Horus.NativeSync (Table get Dep Det Line Src read extract internal get_append get_cons get_none)
open Horus.PipSync (opChar space trim Req Good GoodName)

abbrev Text := List Char

/-- `Cargo.toml`. `inlined` says that it has `dependencies = { … }` rather than a table `[dependencies]`. -/
structure Cargo where
  deps : Table Line
  dev : Table Line := []
  inlined : Bool := false
  deriving DecidableEq

/-- migrate.rs 173-232: `as_table` is `None` for an inline table. -/
def cargoRead (f : Cargo) : Table Dep := if f.inlined then [] else read f.deps

/-- `parse_pep_dep` (migrate.rs 374-387). -/
def pepDep (s : Text) : Text × Option Text :=
  let s := trim s
  let rest := s.dropWhile fun c => !opChar c
  (trim (s.takeWhile fun c => !opChar c), if rest = [] then none else some (trim rest))

def pyDep (v : Option Text) : Dep := .det { version := v.map String.ofList, source := some .pypi }

/-- migrate.rs 338-368: later entries replace earlier ones. -/
def pyRead (specs : List Text) : Table Dep :=
  ((specs.map fun s => (String.ofList (pepDep s).1, pyDep (pepDep s).2)).filter fun x => !internal x.1).reverse

/-- `split_whitespace`. -/
def words : Text → List Text
  | [] => []
  | c :: t => if space c then words t else match t with
    | [] => [[c]]
    | d :: _ => if space d then [c] :: words t else match words t with
      | [] => [[c]]
      | w :: ws => (c :: w) :: ws

/-- `trim_end_matches(')')`. -/
def noParens (s : Text) : Text := (s.reverse.dropWhile (· == ')')).reverse

def sysDep : Dep := .det { source := some .system }

/-- The last token that follows one of the given ones (migrate.rs 512-526). -/
def after (marks : List Text) : List Text → Option Text
  | a :: b :: t => (after marks (b :: t)).or (if a ∈ marks then some b else none)
  | _ => none

/-- `parse_fetch_content_block` (migrate.rs 491-541). -/
def fetchBlock (block : Text) : Table Dep :=
  match words (trim (noParens ((block.dropWhile (· != '(')).drop 1))) with
  | [] => []
  | n :: ts =>
    let name := String.ofList (n.map Char.toLower)
    if internal name then [] else match after ["GIT_REPOSITORY".toList, "URL".toList] (n :: ts) with
      | none => []
      | some u => [(name, .det { source := some .git, git := some (String.ofList u), tag := (after ["GIT_TAG".toList] (n :: ts)).map String.ofList })]

def kwFetch : Text := "FetchContent_Declare(".toList
def kwExternal : Text := "ExternalProject_Add(".toList
def kwCheck : Text := "pkg_check_modules(".toList
def kwSearch : Text := "pkg_search_module(".toList
def kwFind : Text := "find_package(".toList
def kwPkgConfig : Text := "PkgConfig".toList
def flags : List Text := ["REQUIRED", "QUIET", "IMPORTED_TARGET", "NO_CMAKE_PATH"].map String.toList

/-- Modules of pkg-config (migrate.rs 431-458). -/
def pkgModules (rest : Text) : Table Dep :=
  (((words (noParens rest)).drop 1).filter fun t => !(flags.contains t) && !internal (String.ofList t)).map fun t => (String.ofList t, sysDep)

def nameEnd (c : Char) : Bool := space c || c == ')'

/-- migrate.rs 461-484. -/
def findPackage (rest : Text) : Table Dep :=
  let n := (trim rest).takeWhile fun c => !nameEnd c
  if n = [] ∨ n = kwPkgConfig ∨ internal (String.ofList n) = true then [] else [(String.ofList n, sysDep)]

/-- One line of `CMakeLists.txt` (migrate.rs 399-485): the block being collected, and what was found, latest first. -/
def cmakeLine (st : Option Text × Table Dep) (line : Text) : Option Text × Table Dep :=
  let t := trim line
  if t.head? = some '#' then st else match st.1 with
  | some block => if t.contains ')' then (none, fetchBlock (block ++ ' ' :: t) ++ st.2) else (some (block ++ ' ' :: t), st.2)
  | none =>
    if kwFetch.isPrefixOf t || kwExternal.isPrefixOf t then if t.contains ')' then (none, fetchBlock t ++ st.2) else (some t, st.2)
    else if kwCheck.isPrefixOf t then (none, (pkgModules (t.drop kwCheck.length)).reverse ++ st.2)
    else if kwSearch.isPrefixOf t then (none, (pkgModules (t.drop kwSearch.length)).reverse ++ st.2)
    else if kwFind.isPrefixOf t then (none, findPackage (t.drop kwFind.length) ++ st.2)
    else (none, st.2)

/-- `extract_cmake_deps` (migrate.rs 392-488). -/
def cmakeRead (lines : List Text) : Table Dep := (lines.foldl cmakeLine (none, [])).2

/-- The files the command deals with. `Cargo.toml`, `pyproject.toml`'s dependencies, `CMakeLists.txt`'s lines;
the sources `src/main.rs` and `main.rs`; the number of other entries in `src`; what `.horus/backup` holds. -/
structure Project where
  man : Table Dep
  cargo : Option Cargo := none
  py : Option (List Text) := none
  cmake : Option (List Text) := none
  srcMain : Option Text := none
  srcOthers : Nat := 0
  rootMain : Option Text := none
  oldCargo : Option Cargo := none
  oldPy : Option (List Text) := none
  oldCmake : Option (List Text) := none
  deriving DecidableEq

/-- The dependencies after the three `extend`s (migrate.rs 28-83). -/
def merged (p : Project) : Table Dep :=
  ((p.cmake.map cmakeRead).getD []) ++ (((p.py.map pyRead).getD []) ++ (((p.cargo.map cargoRead).getD []) ++ p.man))

inductive Step
  | moveMain | backupCargo | backupPy | backupCmake | save (deps : Table Dep)
  deriving DecidableEq

def Project.old (p : Project) : Bool := p.cargo.isSome || p.py.isSome || p.cmake.isSome

/-- What is changed on disk, in order (migrate.rs 85-161). Whether there is anything to report is whether
one of the three files is there: each of them is reported as backed up. -/
def plan (p : Project) : List Step :=
  if p.old then
    (if p.srcMain.isSome && p.rootMain.isNone && decide (p.srcOthers = 0) then [.moveMain] else []) ++
    (if p.cargo.isSome then [.backupCargo] else []) ++ (if p.py.isSome then [.backupPy] else []) ++
    (if p.cmake.isSome then [.backupCmake] else []) ++ [.save (merged p)]
  else []

def exec (p : Project) : Step → Project
  | .moveMain => { p with srcMain := none, rootMain := p.srcMain }
  | .backupCargo => { p with cargo := none, oldCargo := p.cargo }
  | .backupPy => { p with py := none, oldPy := p.py }
  | .backupCmake => { p with cmake := none, oldCmake := p.cmake }
  | .save deps => { p with man := deps }

/-- The command stopped after `k` changes. -/
def stopped (p : Project) (k : Nat) : Project := ((plan p).take k).foldl exec p

/-- `run_migrate`. -/
def run (dry : Bool) (p : Project) : Project := if dry then p else (plan p).foldl exec p

/-! ### Theorems -/

/-- The files' final state. -/
theorem run_eq (p : Project) (h : p.old = true) : run false p =
    { man := merged p, cargo := none, py := none, cmake := none,
      srcMain := if p.srcMain.isSome && p.rootMain.isNone && decide (p.srcOthers = 0) then none else p.srcMain,
      srcOthers := p.srcOthers,
      rootMain := if p.srcMain.isSome && p.rootMain.isNone && decide (p.srcOthers = 0) then p.srcMain else p.rootMain,
      oldCargo := p.cargo.or p.oldCargo, oldPy := p.py.or p.oldPy, oldCmake := p.cmake.or p.oldCmake } := by
  unfold run plan
  rw [if_pos h, if_neg (by decide)]
  obtain ⟨man, cargo, py, cmake, sm, so, rm, oc, op, om⟩ := p
  dsimp only
  generalize merged _ = m
  cases hc : (sm.isSome && rm.isNone && decide (so = 0)) <;> cases cargo <;> cases py <;> cases cmake <;> simp [exec]

/-- **A dry run changes nothing.** -/
theorem dry_same (p : Project) : run true p = p := rfl

/-- **Which dependency a name stands for after migrating**: the one of `CMakeLists.txt`, else of
`pyproject.toml`, else of `Cargo.toml`, else what `horus.toml` had. -/
theorem migrated_exact (p : Project) (h : p.old = true) (n : String) :
    get (run false p).man n = ((p.cmake.bind fun f => get (cmakeRead f) n).or ((p.py.bind fun f => get (pyRead f) n).or ((p.cargo.bind fun f => get (cargoRead f) n).or (get p.man n)))) := by
  rw [run_eq p h]
  dsimp only
  unfold merged
  rw [get_append, get_append, get_append]
  cases p.cmake <;> cases p.py <;> cases p.cargo <;> simp [Horus.NativeSync.get]

/-- **A dependency of `Cargo.toml` arrives with its version, features, source and place**, when neither
of the other files has one of that name. -/
theorem cargo_kept_partial (p : Project) (f : Cargo) (n : String) (l : Line) (hf : p.cargo = some f) (hi : f.inlined = false)
    (hl : get f.deps n = some l) (hn : internal n = false) (hp : ∀ s, p.py = some s → get (pyRead s) n = none) (hc : ∀ s, p.cmake = some s → get (cmakeRead s) n = none) :
    ∃ d, get (run false p).man n = some (.det d) ∧ d.version = l.version ∧ d.features = l.features ∧ d.optional = l.optional ∧ d.path = l.path ∧
      d.git = l.git ∧ d.branch = l.branch ∧ d.tag = l.tag ∧ d.rev = l.rev ∧
      d.source = some (if l.path.isSome then .path else if l.git.isSome then .git else .cratesIo) := by
  rw [migrated_exact p (by simp [Project.old, hf]) n, hf]
  have h1 : (p.cmake.bind fun f => get (cmakeRead f) n) = none := by
    cases hx : p.cmake with
    | none => rfl
    | some s => exact hc s hx
  have h2 : (p.py.bind fun f => get (pyRead f) n) = none := by
    cases hx : p.py with
    | none => rfl
    | some s => exact hp s hx
  rw [h1, h2]
  have h3 : get (cargoRead f) n = some (extract l) := by
    unfold cargoRead
    rw [hi, if_neg (by decide), Horus.NativeSync.get_read, hn, hl]
    rfl
  rw [Option.bind_some, h3]
  exact ⟨_, rfl, rfl, rfl, rfl, rfl, rfl, rfl, rfl, rfl, rfl⟩

/-- Names that no native file has keep their entries. -/
theorem others_kept (p : Project) (n : String) (h1 : ∀ f, p.cargo = some f → get (cargoRead f) n = none) (h2 : ∀ s, p.py = some s → get (pyRead s) n = none)
    (h3 : ∀ s, p.cmake = some s → get (cmakeRead s) n = none) : get (run false p).man n = get p.man n := by
  cases ho : p.old with
  | false =>
    have : run false p = p := by unfold run plan; rw [ho]; rfl
    rw [this]
  | true =>
    rw [migrated_exact p ho n]
    cases hx : p.cmake with
    | none =>
      cases hy : p.py with
      | none => cases hz : p.cargo with
        | none => rfl
        | some f => simp [h1 f hz]
      | some s => cases hz : p.cargo with
        | none => simp [h2 s hy]
        | some f => simp [h1 f hz, h2 s hy]
    | some s' =>
      cases hy : p.py with
      | none => cases hz : p.cargo with
        | none => simp [h3 s' hx]
        | some f => simp [h1 f hz, h3 s' hx]
      | some s => cases hz : p.cargo with
        | none => simp [h2 s hy, h3 s' hx]
        | some f => simp [h1 f hz, h2 s hy, h3 s' hx]

/-- What no step loses. -/
def Safe (p q : Project) : Prop :=
  (∀ f, p.cargo = some f → q.cargo = some f ∨ (q.cargo = none ∧ q.oldCargo = some f)) ∧ (∀ s, p.py = some s → q.py = some s ∨ (q.py = none ∧ q.oldPy = some s)) ∧
  (∀ s, p.cmake = some s → q.cmake = some s ∨ (q.cmake = none ∧ q.oldCmake = some s)) ∧ (∀ s, p.srcMain = some s → q.srcMain = some s ∨ q.rootMain = some s) ∧
  (∀ s, p.rootMain = some s → q.rootMain = some s)

/-- **Wherever the command stops, the native files are in their places or in the backup, and the
sources are there**; the manifest is the old one or the complete new one. -/
theorem stopped_safe (p : Project) (k : Nat) : Safe p (stopped p k) ∧ ((stopped p k).man = p.man ∨ (stopped p k).man = merged p) := by
  unfold stopped plan
  cases ho : p.old with
  | false =>
    rw [if_neg (by decide), List.take_nil]
    exact ⟨⟨fun f h => Or.inl h, fun f h => Or.inl h, fun f h => Or.inl h, fun f h => Or.inl h, fun f h => h⟩, Or.inl rfl⟩
  | true =>
    rw [if_pos rfl]
    obtain ⟨man, cargo, py, cmake, sm, so, rm, oc, op, om⟩ := p
    dsimp only
    generalize merged _ = m
    unfold Safe
    cases cargo <;> cases py <;> cases cmake <;> cases sm <;> cases rm <;> by_cases hs : so = 0 <;>
      rcases k with _ | _ | _ | _ | _ | k <;> simp [hs, exec]

/-- **After a complete migration there is nothing left to migrate.** -/
theorem rerun_quiet (p : Project) : plan (run false p) = [] ∧ run false (run false p) = run false p := by
  have h : plan (run false p) = [] := by
    cases ho : p.old with
    | false =>
      have : run false p = p := by unfold run plan; rw [ho]; rfl
      rw [this]; unfold plan; rw [ho]; rfl
    | true => rw [run_eq p ho]; rfl
  refine ⟨h, ?_⟩
  have e : ∀ q, plan q = [] → run false q = q := fun q hq => by unfold run; rw [if_neg (by decide), hq]; rfl
  exact e _ h

/-- **Stopped before its last step, the command loses the dependencies for good**: `horus.toml` is as before,
the files they were in are gone to the backup, and running the command again reports that there is nothing
to migrate. -/
theorem stopped_for_good (p : Project) (h : p.old = true) :
    (stopped p ((plan p).length - 1)).man = p.man ∧ plan (stopped p ((plan p).length - 1)) = [] ∧
    run false (stopped p ((plan p).length - 1)) = stopped p ((plan p).length - 1) := by
  have key : (stopped p ((plan p).length - 1)).man = p.man ∧ plan (stopped p ((plan p).length - 1)) = [] := by
    unfold stopped
    have hp : ∃ l, plan p = l ++ [.save (merged p)] ∧ l = (if p.srcMain.isSome && p.rootMain.isNone && decide (p.srcOthers = 0) then [Step.moveMain] else []) ++
      (if p.cargo.isSome then [.backupCargo] else []) ++ (if p.py.isSome then [.backupPy] else []) ++ (if p.cmake.isSome then [.backupCmake] else []) := by
      refine ⟨_, ?_, rfl⟩
      unfold plan; rw [if_pos h]
    obtain ⟨l, h1, h2⟩ := hp
    rw [h1, List.length_append, List.length_singleton, Nat.add_sub_cancel, List.take_left, h2]
    obtain ⟨man, cargo, py, cmake, sm, so, rm, oc, op, om⟩ := p
    dsimp only
    cases hc : (sm.isSome && rm.isNone && decide (so = 0)) <;> cases cargo <;> cases py <;> cases cmake <;> simp [exec, plan, Project.old]
  refine ⟨key.1, key.2, ?_⟩
  conv => lhs; unfold run
  rw [if_neg (by decide), key.2]; rfl

/-- An earlier backup is replaced: migrating a second time destroys it. -/
theorem backup_replaced (p : Project) (f g : Cargo) (hf : p.cargo = some f) (hg : p.oldCargo = some g) (hne : f ≠ g) :
    (run false p).oldCargo = some f ∧ (run false p).oldCargo ≠ p.oldCargo := by
  rw [run_eq p (by simp [Project.old, hf])]
  simp [hf, hg, hne]

/-- **Development dependencies are dropped**, whatever they are; so is everything in an inline table. -/
theorem dev_dropped (p : Project) (f : Cargo) (d : Table Line) (hf : p.cargo = some f) : (run false { p with cargo := some { f with dev := d } }).man = (run false p).man := by
  rw [run_eq p (by simp [Project.old, hf]), run_eq _ (by simp [Project.old])]
  simp [merged, hf, cargoRead]

theorem inline_dropped (man : Table Dep) (d : Table Line) : (run false { man := man, cargo := some { deps := d, inlined := true } }).man = man := by
  rw [run_eq _ rfl]
  simp [merged, cargoRead]

/-- **Of two dependencies of the same name in `Cargo.toml` and `pyproject.toml` the first is dropped**, and a
version written in `horus.toml` is replaced. -/
theorem clash_loses (p : Project) (f : Cargo) (s : List Text) (n : String) (d : Dep) (hf : p.cargo = some f) (hs : p.py = some s) (hc : p.cmake = none)
    (hd : get (pyRead s) n = some d) : get (run false p).man n = some d := by
  rw [migrated_exact p (by simp [Project.old, hf]) n, hs, hc, Option.bind_some, hd]
  rfl

/-! ### Requirements of Python -/

theorem dropWhile_cons_of (c : Char) (w : Text) (h : opChar c = true) : (c :: w).dropWhile (fun c => !opChar c) = c :: w := by
  rw [List.dropWhile_cons, if_neg (by simp [h])]

/-- **A requirement of a name and versions is read as that name and those versions.** -/
theorem pep_exact_partial (r : Req) (h : Good r) (hx : r.extras = []) : pepDep r.text = (r.name, r.version) := by
  have e : r.text = r.name ++ r.version.getD [] := by simp [Req.text, hx]
  have hn : ∀ c ∈ r.name, Horus.PipSync.nameChar c = true := List.all_eq_true.1 h.name.2
  have ht : trim r.text = r.text := by
    apply Horus.PipSync.trim_id
    · intro c hc
      rw [e] at hc
      have := h.name.1
      cases hr : r.name with
      | nil => exact absurd hr this
      | cons a n =>
        rw [hr] at hc
        injection hc with hc
        subst hc
        exact (Horus.PipSync.nameChar_not a (hn a (by rw [hr]; simp))).2.1
    · intro c hc
      rw [e] at hc
      cases hv : r.version with
      | none =>
        rw [hv] at hc
        simp only [Option.getD_none, List.append_nil] at hc
        exact (Horus.PipSync.nameChar_not c (hn c (List.mem_of_getLast? hc))).2.1
      | some v =>
        rw [hv] at hc
        obtain ⟨⟨c0, w, hcw, hop⟩, hall, hlast⟩ := h.version v hv
        rw [Option.getD_some, List.getLast?_append_of_ne_nil _ (by rw [hcw]; simp)] at hc
        have hm := List.all_eq_true.1 hall c (List.mem_of_getLast? hc)
        have hne : c ≠ ' ' := fun hh => hlast (by rw [hc, hh])
        cases hs : space c with
        | false => rfl
        | true =>
          exfalso
          unfold space at hs
          simp only [Bool.or_eq_true, beq_iff_eq] at hs
          rcases hs with ((hs | hs) | hs) | hs
          · exact hne hs
          · subst hs; revert hm; decide
          · subst hs; revert hm; decide
          · subst hs; revert hm; decide
  have hno : ∀ c ∈ r.name, (!opChar c) = true := by
    intro c hc
    have := (Horus.PipSync.nameChar_not c (hn c hc)).1
    unfold Horus.PipSync.stop at this
    rw [Bool.or_eq_false_iff] at this
    rw [this.1]; rfl
  unfold pepDep
  dsimp only
  rw [ht, e]
  cases hv : r.version with
  | none =>
    have hnil : ∀ l : Text, (∀ c ∈ l, (!opChar c) = true) → l.takeWhile (fun c => !opChar c) = l ∧ l.dropWhile (fun c => !opChar c) = [] := by
      intro l hl
      have := Horus.PipSync.takeWhile_stop (fun c => !opChar c) l [] hl (by intro c hc; cases hc)
      simpa using this
    have h0 := hnil r.name hno
    simp only [Option.getD_none, List.append_nil]
    rw [h0.1, h0.2, if_pos rfl, Horus.PipSync.trim_name r.name h.name.2]
  | some v =>
    obtain ⟨⟨c0, w, hcw, hop⟩, hall, hlast⟩ := h.version v hv
    have h0 := Horus.PipSync.takeWhile_stop (fun c => !opChar c) r.name v hno (by intro c hc; rw [hcw] at hc; injection hc with hc; rw [← hc, hop]; rfl)
    simp only [Option.getD_some]
    rw [h0.1, h0.2, if_neg (by rw [hcw]; simp), Horus.PipSync.trim_name r.name h.name.2]
    have htv : trim v = v := by
      apply Horus.PipSync.trim_id
      · intro c hc
        rw [hcw] at hc; injection hc with hc; rw [← hc]
        exact (Horus.PipSync.opChar_not c0 hop).1
      · intro c hc
        have hm := List.all_eq_true.1 hall c (List.mem_of_getLast? hc)
        have hne : c ≠ ' ' := fun hh => hlast (by rw [hc, hh])
        cases hs : space c with
        | false => rfl
        | true =>
          exfalso
          unfold space at hs
          simp only [Bool.or_eq_true, beq_iff_eq] at hs
          rcases hs with ((hs | hs) | hs) | hs
          · exact hne hs
          · subst hs; revert hm; decide
          · subst hs; revert hm; decide
          · subst hs; revert hm; decide
    rw [htv]

/-! ### `CMakeLists.txt` -/

theorem line_keeps (st : Option Text × Table Dep) (line : Text) (n : String) (h : get st.2 n ≠ none) : get (cmakeLine st line).2 n ≠ none := by
  have happ : ∀ t : Table Dep, get (t ++ st.2) n ≠ none := by
    intro t
    rw [get_append]
    cases get t n with
    | none => exact h
    | some d => simp
  unfold cmakeLine
  dsimp only
  by_cases h1 : (trim line).head? = some '#'
  · rw [if_pos h1]; exact h
  rw [if_neg h1]
  cases st.1 with
  | some b =>
    dsimp only
    by_cases h2 : (trim line).contains ')' = true
    · rw [if_pos h2]; exact happ _
    · rw [if_neg h2]; exact h
  | none =>
    dsimp only
    split
    · split
      · exact happ _
      · exact h
    · split
      · exact happ _
      · split
        · exact happ _
        · split
          · exact happ _
          · exact h

theorem lines_keep (ls : List Text) (st : Option Text × Table Dep) (n : String) (h : get st.2 n ≠ none) : get (ls.foldl cmakeLine st).2 n ≠ none := by
  induction ls generalizing st with
  | nil => exact h
  | cons l ls ih => exact ih _ (line_keeps st l n h)

/-- **A `find_package(NAME…` that begins a line outside a block becomes a dependency.** -/
theorem found_partial (before rest : List Text) (name tail : Text) (hopen : (before.foldl cmakeLine (none, [])).1 = none)
    (hn : name ≠ [] ∧ ∀ c ∈ name, nameEnd c = false) (ht : tail = [] ∨ ∃ c t, tail = c :: t ∧ nameEnd c = true) (hl : ∀ c, tail.getLast? = some c → space c = false)
    (hp : name ≠ kwPkgConfig) (hi : internal (String.ofList name) = false) :
    get (cmakeRead (before ++ (kwFind ++ (name ++ tail)) :: rest)) (String.ofList name) ≠ none := by
  unfold cmakeRead
  rw [List.foldl_append, List.foldl_cons]
  apply lines_keep
  generalize hs : before.foldl cmakeLine (none, []) = st at hopen
  have hend : ∀ c, (name ++ tail).getLast? = some c → space c = false := by
    intro c hc
    by_cases h0 : tail = []
    · rw [h0, List.append_nil] at hc
      have := hn.2 c (List.mem_of_getLast? hc)
      unfold nameEnd at this
      rw [Bool.or_eq_false_iff] at this
      exact this.1
    · rw [List.getLast?_append_of_ne_nil _ h0] at hc
      exact hl c hc
  have hne : name ++ tail ≠ [] := by simp [hn.1]
  have htrim : trim (kwFind ++ (name ++ tail)) = kwFind ++ (name ++ tail) := by
    apply Horus.PipSync.trim_id
    · intro c hc
      injection hc with hc
      subst hc; decide
    · intro c hc
      rw [List.getLast?_append_of_ne_nil _ hne] at hc
      exact hend c hc
  have hhead : ∀ c, (name ++ tail).head? = some c → space c = false := by
    intro c hc
    cases hname : name with
    | nil => exact absurd hname hn.1
    | cons a b =>
      rw [hname] at hc
      injection hc with hc
      have := hn.2 c (by rw [hname, hc]; simp)
      unfold nameEnd at this
      rw [Bool.or_eq_false_iff] at this
      exact this.1
  unfold cmakeLine
  rw [hopen]
  dsimp only
  rw [htrim]
  have e1 : (kwFind ++ (name ++ tail)).head? = some 'f' := rfl
  have np : ∀ kw : Text, kw.isPrefixOf kwFind = false → kw.length ≤ kwFind.length ∨ kw.head? ≠ some 'f' → kw ≠ [] → kw.isPrefixOf (kwFind ++ (name ++ tail)) = false := by
    intro kw h1 h2 h3
    cases hq : kw.isPrefixOf (kwFind ++ (name ++ tail)) with
    | false => rfl
    | true =>
      exfalso
      have hpre := List.isPrefixOf_iff_prefix.1 hq
      rcases h2 with h2 | h2
      · have := List.prefix_of_prefix_length_le hpre (List.prefix_append kwFind (name ++ tail)) h2
        rw [List.isPrefixOf_iff_prefix.2 this] at h1
        cases h1
      · cases kw with
        | nil => exact h3 rfl
        | cons a b =>
          obtain ⟨z, hz⟩ := hpre
          have : (a :: b ++ z).head? = some 'f' := by rw [hz]; rfl
          exact h2 this
  rw [if_neg (by rw [e1]; decide), np kwFetch (by decide) (Or.inr (by decide)) (by decide), np kwExternal (by decide) (Or.inr (by decide)) (by decide), np kwCheck (by decide) (Or.inr (by decide)) (by decide),
    np kwSearch (by decide) (Or.inr (by decide)) (by decide), List.isPrefixOf_iff_prefix.2 (List.prefix_append kwFind (name ++ tail))]
  rw [if_neg (by decide), if_neg (by decide), if_neg (by decide), if_pos rfl, List.drop_left]
  dsimp only
  unfold findPackage
  dsimp only
  rw [Horus.PipSync.trim_id _ hhead hend]
  have htw := (Horus.PipSync.takeWhile_stop (fun c => !nameEnd c) name tail (fun c hc => by rw [hn.2 c hc]; rfl) (by
    intro c hc
    rcases ht with h0 | ⟨c0, t, h0, h1⟩
    · rw [h0] at hc; cases hc
    · rw [h0] at hc; injection hc with hc; rw [← hc, h1]; rfl)).1
  rw [htw, if_neg (by rintro (h | h | h); exacts [hn.1 h, hp h, by rw [hi] at h; cases h]), List.singleton_append, get_cons, if_pos rfl]
  simp

/-- Not seen: a blank before the parenthesis, capitals, the second call of a line, a name on the next
line. A wanted version is not kept. -/
theorem cmake_unseen :
    cmakeRead ["find_package (Eigen3 REQUIRED)".toList] = [] ∧ cmakeRead ["FIND_PACKAGE(Eigen3)".toList] = [] ∧
    cmakeRead ["find_package(Threads) find_package(Eigen3)".toList] = [("Threads", sysDep)] ∧ cmakeRead ["find_package(".toList, "  Eigen3)".toList] = [] ∧
    cmakeRead ["find_package(Eigen3 3.4 REQUIRED)".toList] = [("Eigen3", sysDep)] := by decide +kernel

/-- A block is read to its end, and a commented line in it is passed over. -/
theorem cmake_block : cmakeRead ["FetchContent_Declare(".toList, "  Json".toList, "  # GIT_TAG old".toList, "  GIT_REPOSITORY https://h/json".toList, "  GIT_TAG v3)".toList] =
    [("json", .det { source := some .git, git := some "https://h/json", tag := some "v3" })] := by decide +kernel

/-! ### Examples -/

def demo : Project := { man := [("slam", .simple "1")], cargo := some { deps := [("serde", { version := some "1", features := ["derive"] })], dev := [("mockall", { version := some "0.13" })] }, py := some ["numpy>=1.24".toList], srcMain := some "fn main() {}".toList }

example : get (run false demo).man "serde" = some (.det { version := some "1", features := ["derive"], source := some .cratesIo }) ∧ get (run false demo).man "numpy" = some (.det { version := some ">=1.24", source := some .pypi }) ∧
    get (run false demo).man "mockall" = none ∧ (run false demo).rootMain = some "fn main() {}".toList ∧ get (run false demo).man "slam" = some (.simple "1") := by decide +kernel
example : demo.old = true ∧ (stopped demo ((plan demo).length - 1)).oldCargo = demo.cargo := by decide +kernel
example : ∃ d, get (run false demo).man "serde" = some (.det d) ∧ d.version = some "1" := by
  obtain ⟨d, h, hv, -⟩ := cargo_kept_partial demo _ "serde" _ rfl rfl rfl (by decide) (by intro s hs; injection hs with hs; subst hs; decide +kernel) (by intro s hs; cases hs)
  exact ⟨d, h, hv⟩
example : get (cmakeRead ["project(x)".toList, "find_package(OpenCV REQUIRED)".toList]) "OpenCV" ≠ none :=
  found_partial ["project(x)".toList] [] "OpenCV".toList " REQUIRED)".toList (by decide +kernel) ⟨by decide, by decide⟩ (Or.inr ⟨' ', _, rfl, by decide⟩) (by intro c hc; injection hc with hc; subst hc; decide) (by decide) (by decide)
example : pepDep "numpy>=1.24,<2".toList = ("numpy".toList, some ">=1.24,<2".toList) :=
  pep_exact_partial ⟨"numpy".toList, [], some ">=1.24,<2".toList⟩ ⟨⟨by decide, by decide⟩, by simp, by intro v hv; injection hv with hv; subst hv; exact ⟨⟨'>', _, rfl, by decide⟩, by decide, by decide⟩⟩ rfl

end Horus.Migrate
