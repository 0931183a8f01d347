/-
`horus test`: horus_manager/src/commands/test.rs 73-470.

The programs started, their exit codes (none: the program could not be started or was killed), and what lies in the project
directory are parameters. Options that are only passed on (filter, release, nocapture, integration, verbose) are left out.
-/
namespace Horus.TestCmd

/-- The options that matter here (test.rs:61-71). -/
structure Cfg where
  threads : Option Nat
  parallel : Bool
  sim : Bool
  noBuild : Bool
deriving DecidableEq

/-- What is found: the languages detected, whether a `main.rs` is there; for Rust, a Cargo.toml at the root, a generated one,
whether it is out of date, and whether generating works; for Python, whether the interpreter and its path are found, whether
pytest is installed, whether there are test files; for C++, whether the build directory is there and what `cmake --build` says. -/
structure World where
  rust : Bool
  python : Bool
  cpp : Bool
  mainRs : Bool
  rootCargo : Bool
  genCargo : Bool
  stale : Bool
  genOk : Bool
  cargoExit : Option Nat
  prepOk : Bool
  pytest : Bool
  testFiles : Bool
  pyExit : Option Nat
  buildDir : Bool
  cmakeOk : Bool
  cppExit : Option Nat
  cpus : Nat
deriving DecidableEq

inductive Tool where
  | cargo
  | pytest
  | ctest
deriving DecidableEq

/-- A test runner that is started: whether it is told to use simulated drivers, and how many jobs it is given. -/
structure Proc where
  tool : Tool
  sim : Bool
  jobs : Option Nat
deriving DecidableEq

/-- `run_rust_tests` (test.rs:129-251). -/
def rust (c : Cfg) (w : World) : List Proc × Bool :=
  let generates := !c.noBuild && (w.stale || !w.genCargo) && !w.rootCargo
  if generates && !w.genOk then ([], false)
  else if !w.rootCargo && !(w.genCargo || generates) then ([], true)
  else ([⟨.cargo, c.sim, some (match c.threads with | some n => n | none => if c.parallel then w.cpus else 1)⟩], w.cargoExit = some 0)

/-- `run_python_tests` (test.rs:281-421); exit code 5 is "no tests collected". -/
def python (c : Cfg) (w : World) : List Proc × Bool :=
  if !w.prepOk then ([], false)
  else if !w.pytest then ([], !w.testFiles)
  else ([⟨.pytest, c.sim, if c.parallel then some (c.threads.getD w.cpus) else none⟩], w.pyExit = some 0 ∨ w.pyExit = some 5)

/-- `run_cpp_tests` (test.rs:424-469). -/
def cpp (c : Cfg) (w : World) : List Proc × Bool :=
  if !w.buildDir && !w.cmakeOk then ([], false)
  else ([⟨.ctest, false, if c.parallel then some w.cpus else none⟩], w.cppExit = some 0)

/-- One after the other, up to the first that fails (the `?` in test.rs:95-114). -/
def chain : List (List Proc × Bool) → List Proc × Bool
  | [] => ([], true)
  | (p, true) :: l => (p ++ (chain l).1, (chain l).2)
  | (p, false) :: _ => (p, false)

/-- `run_tests` (test.rs:76-126): the runners started, and whether the command succeeds. -/
def runTests (c : Cfg) (w : World) : List Proc × Bool :=
  if w.rust || w.python || w.cpp then
    chain ((if w.rust then [rust c w] else []) ++ (if w.python then [python c w] else []) ++ (if w.cpp then [cpp c w] else []))
  else if w.mainRs then rust c w
  else ([], false)

/-! ### Theorems -/

theorem chain_ok (l : List (List Proc × Bool)) : (chain l).2 = true ↔ ∀ x ∈ l, x.2 = true := by
  induction l with
  | nil => simp [chain]
  | cons x l ih => rcases x with ⟨p, _ | _⟩ <;> simp [chain, ih]

theorem chain_mem (l : List (List Proc × Bool)) (p : Proc) (h : p ∈ (chain l).1) : ∃ x ∈ l, p ∈ x.1 := by
  induction l with
  | nil => cases h
  | cons x l ih =>
    rcases x with ⟨q, _ | _⟩
    · exact ⟨(q, false), by simp, h⟩
    · rcases List.mem_append.1 h with h | h
      · exact ⟨(q, true), by simp, h⟩
      · obtain ⟨x, hx, hp⟩ := ih h; exact ⟨x, by simp [hx], hp⟩

theorem chain_all (l : List (List Proc × Bool)) (h : (chain l).2 = true) (x : List Proc × Bool) (hx : x ∈ l) (p : Proc) (hp : p ∈ x.1) :
    p ∈ (chain l).1 := by
  induction l with
  | nil => cases hx
  | cons y l ih =>
    rcases y with ⟨q, _ | _⟩
    · cases h
    · rcases List.mem_cons.1 hx with rfl | hx
      · exact List.mem_append.2 (.inl hp)
      · exact List.mem_append.2 (.inr (ih h hx))

/-- C301: `horus test` succeeds exactly if there is something to test and each language's tests do: cargo and ctest must
exit with 0, pytest with 0 or with 5 for no tests; the exceptions are a Rust project never built under `--no-build`, and a
Python project without test files where pytest is missing. -/
theorem green_iff (c : Cfg) (w : World) :
    (runTests c w).2 = true ↔
      (w.rust = true ∨ w.python = true ∨ w.cpp = true ∨ w.mainRs = true) ∧
      (w.rust = true ∨ (w.python = false ∧ w.cpp = false) →
        (w.rootCargo = true ∧ w.cargoExit = some 0) ∨
        (w.rootCargo = false ∧ w.genCargo = false ∧ c.noBuild = true) ∨
        (w.rootCargo = false ∧ w.cargoExit = some 0 ∧ ((w.genCargo = true ∧ (w.stale = false ∨ c.noBuild = true)) ∨ (c.noBuild = false ∧ w.genOk = true)))) ∧
      (w.python = true → w.prepOk = true ∧ ((w.pytest = false ∧ w.testFiles = false) ∨ (w.pytest = true ∧ (w.pyExit = some 0 ∨ w.pyExit = some 5)))) ∧
      (w.cpp = true → (w.buildDir = true ∨ w.cmakeOk = true) ∧ w.cppExit = some 0) := by
  have hr : (rust c w).2 = true ↔ ((w.rootCargo = true ∧ w.cargoExit = some 0) ∨
        (w.rootCargo = false ∧ w.genCargo = false ∧ c.noBuild = true) ∨
        (w.rootCargo = false ∧ w.cargoExit = some 0 ∧ ((w.genCargo = true ∧ (w.stale = false ∨ c.noBuild = true)) ∨ (c.noBuild = false ∧ w.genOk = true)))) := by
    unfold rust
    cases w.rootCargo <;> cases w.genCargo <;> cases w.stale <;> cases w.genOk <;> cases c.noBuild <;> simp
  have hp : (python c w).2 = true ↔ (w.prepOk = true ∧ ((w.pytest = false ∧ w.testFiles = false) ∨ (w.pytest = true ∧ (w.pyExit = some 0 ∨ w.pyExit = some 5)))) := by
    unfold python
    cases w.prepOk <;> cases w.pytest <;> cases w.testFiles <;> simp
  have hc : (cpp c w).2 = true ↔ ((w.buildDir = true ∨ w.cmakeOk = true) ∧ w.cppExit = some 0) := by
    unfold cpp
    cases w.buildDir <;> cases w.cmakeOk <;> simp
  rw [← hr, ← hp, ← hc]
  unfold runTests
  cases h1 : w.rust <;> cases h2 : w.python <;> cases h3 : w.cpp <;> cases h4 : w.mainRs <;> simp [chain_ok]

/-- C301: every runner of the languages tested by cargo and pytest uses simulated drivers exactly if asked to; those are all but
ctest. -/
theorem sim_partial (c : Cfg) (w : World) (p : Proc) (h : p ∈ (runTests c w).1) (ht : p.tool ≠ .ctest) : p.sim = c.sim := by
  have hr : ∀ p ∈ (rust c w).1, p.sim = c.sim := by
    intro p hp; unfold rust at hp; dsimp only at hp
    split at hp
    · cases hp
    · split at hp
      · cases hp
      · simp at hp; rw [hp]
  have hpy : ∀ p ∈ (python c w).1, p.sim = c.sim := by
    intro p hp; unfold python at hp
    split at hp
    · cases hp
    · split at hp
      · cases hp
      · simp at hp; rw [hp]
  have hc : ∀ p ∈ (cpp c w).1, p.tool = .ctest := by
    intro p hp; unfold cpp at hp
    split at hp
    · cases hp
    · simp at hp; rw [hp]
  unfold runTests at h
  split at h
  · obtain ⟨x, hx, hp⟩ := chain_mem _ _ h
    rcases List.mem_append.1 hx with hx | hx
    · rcases List.mem_append.1 hx with hx | hx
      · split at hx
        · simp at hx; subst hx; exact hr p hp
        · cases hx
      · split at hx
        · simp at hx; subst hx; exact hpy p hp
        · cases hx
    · split at hx
      · simp at hx; subst hx; exact absurd (hc p hp) ht
      · cases hx
  · split at h
    · exact hr p h
    · cases h

/-- C301, a disagreement: the tests of a C++ project run with the real drivers although simulated ones were asked for. -/
theorem cpp_real (c : Cfg) (w : World) (hs : c.sim = true) (hc : w.cpp = true) (hb : w.buildDir = true) (hok : (runTests c w).2 = true) :
    ∃ p ∈ (runTests c w).1, p.tool = .ctest ∧ p.sim ≠ c.sim := by
  have hor : (w.rust || w.python || w.cpp) = true := by simp [hc]
  have hm : (⟨.ctest, false, if c.parallel then some w.cpus else none⟩ : Proc) ∈ (cpp c w).1 := by simp [cpp, hb]
  refine ⟨⟨.ctest, false, if c.parallel then some w.cpus else none⟩, ?_, rfl, by simp [hs]⟩
  unfold runTests at hok ⊢
  rw [if_pos hor] at hok ⊢
  exact chain_all _ hok (cpp c w) (by simp [hc]) _ hm

/-- C301: cargo's tests run one at a time unless the user asks for more: a number given counts, else all processors under
`--parallel`. -/
theorem rust_jobs (c : Cfg) (w : World) (p : Proc) (h : p ∈ (rust c w).1) :
    p.tool = .cargo ∧ (∀ n, c.threads = some n → p.jobs = some n) ∧ (c.threads = none → c.parallel = true → p.jobs = some w.cpus) ∧
    (c.threads = none → c.parallel = false → p.jobs = some 1) := by
  unfold rust at h
  dsimp only at h
  split at h
  · cases h
  · split at h
    · cases h
    · simp at h
      subst h
      refine ⟨rfl, ?_, ?_, ?_⟩
      · intro n hn; simp [hn]
      · intro hn hp; simp [hn, hp]
      · intro hn hp; simp [hn, hp]

/-- C301, a disagreement: a number of threads is ignored for Python tests unless `--parallel` is given, and always for C++. -/
theorem threads_ignored (c : Cfg) (w : World) (n : Option Nat) :
    cpp { c with threads := n } w = cpp c w ∧ (c.parallel = false → python { c with threads := n } w = python c w) := by
  constructor
  · rfl
  · intro h; simp [python, h]

/-- C301, a disagreement: with `--no-build` a Rust project that was never built passes though no test was run. -/
theorem nothing_green (c : Cfg) (w : World) (hl : w.rust = true ∧ w.python = false ∧ w.cpp = false) (hb : c.noBuild = true)
    (hg : w.rootCargo = false ∧ w.genCargo = false) : runTests c w = ([], true) := by
  simp [runTests, hl, rust, hb, hg, chain]

/-- C301: once a language's tests fail, the tests of the languages after it are not run. -/
theorem first_failure (c : Cfg) (w : World) (hr : w.rust = true) (hf : (rust c w).2 = false) : runTests c w = ((rust c w).1, false) := by
  unfold runTests
  rw [hr]
  rcases hx : rust c w with ⟨p, b⟩
  rw [hx] at hf
  dsimp only at hf
  subst hf
  rfl

/-! ### Examples -/

/-- A project in all three languages whose tests pass. -/
def world1 : World := ⟨true, true, true, true, true, false, false, true, some 0, true, true, true, some 0, true, true, some 0, 8⟩

example : runTests ⟨none, false, true, false⟩ world1 = ([⟨.cargo, true, some 1⟩, ⟨.pytest, true, none⟩, ⟨.ctest, false, none⟩], true) := by decide +kernel
example : (runTests ⟨none, false, true, false⟩ { world1 with pyExit := some 1 }).2 = false := by decide +kernel
example : runTests ⟨some 4, true, false, false⟩ { world1 with cargoExit := some 101 } = ([⟨.cargo, false, some 4⟩], false) := by decide +kernel

end Horus.TestCmd
