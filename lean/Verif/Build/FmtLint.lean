import Verif.Build.Langs
/-
`horus fmt` and `horus lint`: horus_manager/src/commands/fmt.rs:16-95, horus_manager/src/commands/lint.rs:16-127, the
choice of tools in horus_manager/src/dispatch.rs:208-248, 318-525 and the running of them in
horus_manager/src/run_with_prefix.rs:70-260.

How a tool ends is a parameter.  The order of the tools and the sorting of the files are left out: nothing said here
depends on them.  A thread of the runner that panics is left out.  The tree followed has no links that lead back into it.
-/
namespace Horus.FmtLint
open Horus.Langs (Str Lang ext cppExts)

inductive Op where
  | fmt | lint
deriving DecidableEq

/-- The tool for a language (dispatch.rs:333-362 Rust, 365-420 Python, 491-523 C++; none for ROS 2, 325-327). -/
def toolFor (inst : String → Bool) : Op → Lang → Option String
  | .fmt, .rust => if inst "cargo" then some "cargo" else none
  | .lint, .rust => if inst "cargo" then some "cargo" else none
  | .fmt, .python => if inst "ruff" then some "ruff" else if inst "black" then some "black" else none
  | .lint, .python => if inst "ruff" then some "ruff" else if inst "pylint" then some "pylint" else if inst "flake8" then some "flake8" else none
  | .fmt, .cpp => if inst "clang-format" then some "clang-format" else none
  | .lint, .cpp => if inst "clang-tidy" then some "clang-tidy" else none
  | _, .ros2 => none

/-- How a tool ended (run_with_prefix.rs:100-127, 158-222): with a code, by a signal, or it was never started (or not waited for), which is made a
code of 1 (run_with_prefix.rs:290-301). -/
inductive Status where
  | code (n : Nat)
  | signal (n : Nat)
  | unstarted
deriving DecidableEq

/-- `PrefixedResult::success` (run_with_prefix.rs:44-48). -/
def Status.ok : Status → Bool
  | .code n => n = 0
  | _ => false

/-- `exit_code_of` (run_with_prefix.rs:234-248). -/
def Status.exit : Status → Nat
  | .code n => n
  | .signal n => 128 + n
  | .unstarted => 1

/-- What the system lets a process end with. -/
def Status.valid : Status → Prop
  | .code n => n < 256
  | .signal n => 0 < n ∧ n ≤ 64
  | .unstarted => True

/-- `worst_exit_code` (run_with_prefix.rs:225-231). -/
def worst (l : List Status) : Nat := (l.map Status.exit).foldr max 0

/-- The end of the command as the shell sees it (fmt.rs:16-32, 86-94; lint.rs:18-34, 112-126): `types` are the results of the type checker,
if it was asked for and found. -/
def run (langs : List Lang) (inst : String → Bool) (op : Op) (st : Lang → Status) (types : List Status) : Nat :=
  if langs = [] then 1
  else
    let used := langs.filter fun l => (toolFor inst op l).isSome
    if used = [] then 0
    else
      let results := used.map st ++ types
      if results.all Status.ok then 0 else worst results % 256

/-! ### The files of C++ -/

inductive Node where
  | file (name : Str)
  | dir (name : Str) (entries : List Node)

/-- dispatch.rs:210-218. -/
def skip : List Str := [".horus", ".git", "target", "build", "cpp-build", "node_modules", "_build"].map String.toList

def cppFile (n : Str) : Bool := match ext n with
  | some e => cppExts.contains e
  | none => false

/-- dispatch.rs:232. -/
def enters (n : Str) : Bool := n.head? ≠ some '.' && !skip.contains n

mutual
/-- An entry, at the depth of its directory (dispatch.rs:227-242). -/
def walkNode (depth : Nat) (pre : List Str) : Node → List (List Str)
  | .file n => if cppFile n then [pre ++ [n]] else []
  | .dir n es => if enters n then (if 8 < depth + 1 then [] else walkList (depth + 1) (pre ++ [n]) es) else []
/-- The entries of a directory (dispatch.rs:220-243). -/
def walkList (depth : Nat) (pre : List Str) : List Node → List (List Str)
  | [] => []
  | e :: es => walkNode depth pre e ++ walkList depth pre es
end

/-- `cpp_source_files` (dispatch.rs:208-248). -/
def cppFiles (root : List Node) : List (List Str) := walkList 0 [] root

/-- A file lies in those directories, one inside the other, under that name. -/
inductive At : List Node → List Str → Str → Prop
  | here {l n} : Node.file n ∈ l → At l [] n
  | under {l d es ds n} : Node.dir d es ∈ l → At es ds n → At l (d :: ds) n

theorem walkList_mem (depth : Nat) (pre : List Str) (l : List Node) (p : List Str) : p ∈ walkList depth pre l ↔ ∃ e ∈ l, p ∈ walkNode depth pre e := by
  induction l with
  | nil => simp [walkList]
  | cons e l ih => simp [walkList, ih]

theorem walk_in (ds : List Str) (n : Str) : ∀ (l : List Node) (depth : Nat) (pre : List Str), At l ds n → (∀ d ∈ ds, enters d = true) → depth + ds.length ≤ 8 → cppFile n = true →
    pre ++ ds ++ [n] ∈ walkList depth pre l := by
  induction ds with
  | nil =>
    intro l depth pre h _ _ hc
    cases h with
    | here h => rw [walkList_mem]; exact ⟨_, h, by simp [walkNode, hc]⟩
  | cons d ds ih =>
    intro l depth pre h he hl hc
    cases h with
    | under hm ha =>
      rw [walkList_mem]
      refine ⟨_, hm, ?_⟩
      simp only [List.length_cons] at hl
      rw [walkNode, he d (by simp), if_pos rfl, if_neg (by omega)]
      have := ih _ (depth + 1) (pre ++ [d]) ha (fun x hx => he x (by simp [hx])) (by omega) hc
      simpa using this

mutual
theorem walkNode_out (depth : Nat) (pre p : List Str) (hd : depth ≤ 8) : ∀ e : Node, p ∈ walkNode depth pre e →
    ∃ ds n, At [e] ds n ∧ p = pre ++ ds ++ [n] ∧ (∀ d ∈ ds, enters d = true) ∧ depth + ds.length ≤ 8 ∧ cppFile n = true
  | .file n, h => by
    rw [walkNode] at h
    split at h
    · rename_i hc
      simp only [List.mem_singleton] at h
      exact ⟨[], n, .here (by simp), by simpa using h, by simp, by simpa using hd, hc⟩
    · simp at h
  | .dir n es, h => by
    rw [walkNode] at h
    split at h
    · rename_i he
      split at h
      · simp at h
      · rename_i hx
        obtain ⟨ds, m, h1, h2, h3, h4, h5⟩ := walkList_out (depth + 1) (pre ++ [n]) p (by omega) es h
        refine ⟨n :: ds, m, .under (by simp) h1, by simpa using h2, ?_, by simp; omega, h5⟩
        intro d hd
        simp only [List.mem_cons] at hd
        rcases hd with rfl | hd
        · exact he
        · exact h3 d hd
    · simp at h
theorem walkList_out (depth : Nat) (pre p : List Str) (hd : depth ≤ 8) : ∀ l : List Node, p ∈ walkList depth pre l →
    ∃ ds n, At l ds n ∧ p = pre ++ ds ++ [n] ∧ (∀ d ∈ ds, enters d = true) ∧ depth + ds.length ≤ 8 ∧ cppFile n = true
  | [], h => by simp [walkList] at h
  | e :: es, h => by
    rw [walkList, List.mem_append] at h
    have lift : ∀ {l l' : List Node} {ds n}, (∀ x ∈ l, x ∈ l') → At l ds n → At l' ds n := by
      intro l l' ds n hs ha
      cases ha with
      | here h => exact .here (hs _ h)
      | under h ha => exact .under (hs _ h) ha
    rcases h with h | h
    · obtain ⟨ds, n, h1, h2⟩ := walkNode_out depth pre p hd e h
      exact ⟨ds, n, lift (by simp) h1, h2⟩
    · obtain ⟨ds, n, h1, h2⟩ := walkList_out depth pre p hd es h
      exact ⟨ds, n, lift (by intro x hx; simp [hx]) h1, h2⟩
end

/-- The C++ tools are given exactly the C++ files at most eight directories down whose directories are neither hidden nor build directories. -/
theorem files_iff (root : List Node) (ds : List Str) (n : Str) :
    ds ++ [n] ∈ cppFiles root ↔ At root ds n ∧ (∀ d ∈ ds, enters d = true) ∧ ds.length ≤ 8 ∧ cppFile n = true := by
  constructor
  · intro h
    obtain ⟨ds', n', h1, h2, h3, h4, h5⟩ := walkList_out 0 [] _ (by omega) root h
    simp only [List.nil_append] at h2
    obtain ⟨rfl, h6⟩ := List.append_inj' h2 rfl
    simp only [List.cons.injEq, and_true] at h6
    subst h6
    exact ⟨h1, h3, by omega, h5⟩
  · rintro ⟨h1, h2, h3, h4⟩
    have := walk_in ds n root 0 [] h1 h2 (by omega) h4
    simpa [cppFiles] using this

/-- A file nine directories down is left alone. -/
theorem deep_file (root : List Node) (ds : List Str) (n : Str) (h : 9 ≤ ds.length) : ds ++ [n] ∉ cppFiles root := by
  rw [files_iff]; rintro ⟨_, _, h1, _⟩; omega

/-! ### What the exit code tells -/

theorem exit_ok (s : Status) (h : s.exit = 0) : s.ok = true := by
  cases s with
  | code n => simpa [Status.exit, Status.ok] using h
  | signal n => simp [Status.exit] at h
  | unstarted => simp [Status.exit] at h

theorem worst_ge (l : List Status) (s : Status) (h : s ∈ l) : s.exit ≤ worst l := by
  induction l with
  | nil => simp at h
  | cons a l ih =>
    simp only [worst, List.map_cons, List.foldr_cons]
    simp only [List.mem_cons] at h
    rcases h with rfl | h
    · exact Nat.le_max_left _ _
    · exact Nat.le_trans (ih h) (Nat.le_max_right _ _)

theorem worst_lt (l : List Status) (h : ∀ s ∈ l, s.valid) : worst l < 256 := by
  induction l with
  | nil => decide
  | cons a l ih =>
    simp only [worst, List.map_cons, List.foldr_cons]
    have h1 := ih fun s hs => h s (by simp [hs])
    have h2 : a.exit < 256 := by
      have := h a (by simp)
      cases a with
      | code n => exact this
      | signal n => have := this.2; simp only [Status.exit]; omega
      | unstarted => decide
    exact Nat.max_lt.2 ⟨h2, h1⟩

theorem results_green (l : List Status) (hv : ∀ s ∈ l, s.valid) : (if l.all Status.ok then 0 else worst l % 256) = 0 ↔ ∀ s ∈ l, s.ok = true := by
  split
  · rename_i h; simpa using h
  · rename_i h
    rw [Nat.mod_eq_of_lt (worst_lt l hv)]
    constructor
    · intro h0 s hs
      exact exit_ok s (by have := worst_ge l s hs; omega)
    · intro h1; exact absurd (List.all_eq_true.2 h1) h

/-- **The command ends well exactly when every tool that was run did**, and there was something to do: no crash, no tool that could not be
started is taken for success. -/
theorem green_iff (langs : List Lang) (inst : String → Bool) (op : Op) (st : Lang → Status) (types : List Status) (hv : ∀ l, (st l).valid) (ht : ∀ s ∈ types, s.valid) :
    run langs inst op st types = 0 ↔
      langs ≠ [] ∧ ((∀ l ∈ langs, toolFor inst op l = none) ∨ ((∀ l ∈ langs, (toolFor inst op l).isSome → (st l).ok = true) ∧ ∀ s ∈ types, s.ok = true)) := by
  unfold run
  by_cases hl : langs = []
  · simp [hl]
  · rw [if_neg hl]
    dsimp only
    by_cases hu : langs.filter (fun l => (toolFor inst op l).isSome) = []
    · rw [if_pos hu]
      have : ∀ l ∈ langs, toolFor inst op l = none := by simpa [List.filter_eq_nil_iff] using hu
      exact ⟨fun _ => ⟨hl, Or.inl this⟩, fun _ => rfl⟩
    · rw [if_neg hu, results_green _ (by
        intro s hs
        simp only [List.mem_append, List.mem_map] at hs
        rcases hs with ⟨l, _, rfl⟩ | hs
        · exact hv l
        · exact ht s hs)]
      have hn : ¬ ∀ l ∈ langs, toolFor inst op l = none := by simpa [List.filter_eq_nil_iff] using hu
      constructor
      · intro h
        refine ⟨hl, Or.inr ⟨fun l hm hs => h _ ?_, fun s hs => h _ (by simp [hs])⟩⟩
        simp only [List.mem_append, List.mem_map, List.mem_filter]
        exact Or.inl ⟨l, ⟨hm, hs⟩, rfl⟩
      · rintro ⟨_, h | ⟨h1, h2⟩⟩ s hs
        · exact absurd h hn
        · simp only [List.mem_append, List.mem_map, List.mem_filter] at hs
          rcases hs with ⟨l, ⟨hm, hi⟩, rfl⟩ | hs
          · exact h1 l hm hi
          · exact h2 s hs

/-- Where each language of the project has its tool, a good end means that each of them was looked at and found in order. -/
theorem checked_partial (langs : List Lang) (inst : String → Bool) (op : Op) (st : Lang → Status) (types : List Status) (hv : ∀ l, (st l).valid) (ht : ∀ s ∈ types, s.valid)
    (hi : ∀ l ∈ langs, (toolFor inst op l).isSome) (h : run langs inst op st types = 0) : langs ≠ [] ∧ (∀ l ∈ langs, (st l).ok = true) ∧ ∀ s ∈ types, s.ok = true := by
  obtain ⟨hl, h | ⟨h1, h2⟩⟩ := (green_iff langs inst op st types hv ht).1 h
  · obtain ⟨l, hm⟩ := List.exists_mem_of_ne_nil langs hl
    have := hi l hm
    rw [h l hm] at this; simp at this
  · exact ⟨hl, fun l hm => h1 l hm (hi l hm), h2⟩

/-- A language whose tool is missing is passed over: the command ends well whatever its files are like, if the others are in order. -/
theorem missing_green (langs : List Lang) (inst : String → Bool) (op : Op) (st : Lang → Status) (hv : ∀ l, (st l).valid) (hl : langs ≠ [])
    (h : ∀ l ∈ langs, toolFor inst op l = none ∨ (st l).ok = true) : run langs inst op st [] = 0 := by
  refine (green_iff langs inst op st [] hv (by simp)).2 ⟨hl, Or.inr ⟨fun l hm hs => ?_, by simp⟩⟩
  rcases h l hm with h | h
  · rw [h] at hs; simp at hs
  · exact h

/-- A ROS 2 package alone is never looked at, and always in order. -/
theorem ros_green (inst : String → Bool) (op : Op) (st : Lang → Status) (types : List Status) : run [.ros2] inst op st types = 0 := by
  cases op <;> rfl

/-! ### The arguments -/

/-- The default arguments for formatting (dispatch.rs:343, 372-393, 497-506). -/
def fmtDefault (bin : String) : List String :=
  if bin = "cargo" then ["fmt"] else if bin = "ruff" then ["format", "."] else if bin = "black" then ["."]
  else if bin = "clang-format" then ["-i", "--style=file"] else []

/-- The arguments of the formatter (fmt.rs:40-78); `manifest` is the generated Cargo.toml if it is to be used. -/
def fmtArgs (bin : String) (manifest : Option String) (check : Bool) (files extra : List String) : List String :=
  let a := fmtDefault bin
  let a := if bin = "cargo" then a ++ (manifest.map fun m => ["--manifest-path", m]).getD [] else a
  let a := if check then
      if bin = "cargo" ∨ bin = "ruff" ∨ bin = "black" then a ++ ["--check"]
      else if bin = "clang-format" then (a.filter (· ≠ "-i")) ++ ["--dry-run", "--Werror"]
      else a
    else a
  let a := if bin = "clang-format" then a ++ files else a
  a ++ extra

/-- `horus fmt --check` tells every formatter to write nothing. -/
theorem check_only (inst : String → Bool) (l : Lang) (bin : String) (hb : toolFor inst .fmt l = some bin) (m : Option String) (files extra : List String) :
    (bin = "clang-format" ∧ "--dry-run" ∈ fmtArgs bin m true files extra ∧ ("-i" ∉ files → "-i" ∉ extra → "-i" ∉ fmtArgs bin m true files extra)) ∨
    (bin ≠ "clang-format" ∧ "--check" ∈ fmtArgs bin m true files extra) := by
  have hb : bin = "cargo" ∨ bin = "ruff" ∨ bin = "black" ∨ bin = "clang-format" := by
    cases l <;> simp only [toolFor] at hb <;> repeat' split at hb
    all_goals simp_all
  rcases hb with rfl | rfl | rfl | rfl
  · right; cases m <;> simp [fmtArgs, fmtDefault]
  · right; cases m <;> simp [fmtArgs, fmtDefault]
  · right; cases m <;> simp [fmtArgs, fmtDefault]
  · left
    refine ⟨rfl, ?_, ?_⟩
    · cases m <;> simp [fmtArgs, fmtDefault]
    · intro h1 h2
      cases m <;> simp [fmtArgs, fmtDefault, h1, h2]

/-- The C++ formatter is given the files, all of them and no others. -/
theorem cpp_given (m : Option String) (check : Bool) (files : List String) :
    fmtArgs "clang-format" m check files [] = (if check then ["--style=file", "--dry-run", "--Werror"] else ["-i", "--style=file"]) ++ files := by
  cases check <;> cases m <;> simp [fmtArgs, fmtDefault]

/-- The arguments of clippy without `--fix` (lint.rs:41-54, 100). -/
def clippyArgs (manifest : Option String) (extra : List String) : List String :=
  let a := ["clippy", "--", "-D", "warnings"]
  let a := match manifest with
    | some m => (a.takeWhile (· ≠ "--")) ++ ["--manifest-path", m] ++ a.dropWhile (· ≠ "--")
    | none => a
  a ++ extra

/-- The manifest goes to cargo, before the dashes; what the user adds goes behind them, to the lints, and never to cargo. -/
theorem clippy_extra (m : String) (extra : List String) : clippyArgs (some m) extra = ["clippy", "--manifest-path", m] ++ ["--", "-D", "warnings"] ++ extra := by
  simp [clippyArgs]

example : run [.rust, .python] (· = "cargo") .fmt (fun l => if l = .rust then .code 0 else .code 1) [] = 0 := by decide
example : run [.rust, .python] (fun _ => true) .fmt (fun l => if l = .rust then .code 0 else .signal 11) [] = 139 := by decide
example : run [.cpp] (fun _ => true) .lint (fun _ => .unstarted) [] = 1 := by decide
example : cppFiles [.file "a.rs".toList, .dir "src".toList [.file "main.cpp".toList, .dir "build".toList [.file "x.cpp".toList]], .file "b.hpp".toList]
    = [["src".toList, "main.cpp".toList], ["b.hpp".toList]] := by decide +kernel

end Horus.FmtLint
