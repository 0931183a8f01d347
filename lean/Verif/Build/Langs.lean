/-
Which language a project is in.  Three places decide it: horus_manager/src/manifest.rs:87-151 (`detect_languages`, for
`horus deploy` and `horus check`), horus_manager/src/dispatch.rs:145-197 (`detect_project_languages`, for `horus fmt`,
`lint`, `test`, `doc` and the package commands) and horus_manager/src/commands/run/mod.rs:838-893 with
horus_manager/src/commands/run/deps.rs:142-164 (the main file, for `horus run` and `build`).

A project is the names in its own directory, in `src` and in `.horus`; the code asks only whether a name is there,
never whether it is a file.  The current directory is the project's.  Which files the manifest says to ignore is a
parameter (Verif/Build/Ignore.lean models it).
-/
namespace Horus.Langs

abbrev Str := List Char

structure Tree where
  root : List Str
  src : List Str
  gen : List Str
deriving DecidableEq

inductive Lang where
  | rust | python | cpp | ros2
deriving DecidableEq, Repr

/-- `Path::extension`: what stands behind the last dot, unless nothing stands before it. -/
def ext (f : Str) : Option Str :=
  match f.reverse.dropWhile (· ≠ '.') with
  | [] => none
  | _ :: stem => if stem = [] then none else some (f.reverse.takeWhile (· ≠ '.')).reverse

/-- `has_files_with_ext` (manifest.rs:140-155); dispatch.rs:250-267 is the same. -/
def hasExt (t : Tree) (e : Str) : Bool := t.root.any (fun f => ext f = some e) || t.src.any (fun f => ext f = some e)

def has (l : List Str) (s : String) : Bool := l.contains s.toList

/-- `CPP_SOURCE_EXTENSIONS` (manifest.rs:87). -/
def cppExts : List Str := ["cpp", "cc", "cxx", "hpp", "hh", "hxx"].map String.toList

/-- manifest.rs:93-95, dispatch.rs:149-151. -/
def hasRust (t : Tree) : Bool := has t.root "Cargo.toml" || has t.gen "Cargo.toml" || hasExt t "rs".toList

/-- manifest.rs:102-106. -/
def hasPython (t : Tree) : Bool :=
  has t.root "pyproject.toml" || has t.gen "pyproject.toml" || has t.root "setup.py" || has t.root "requirements.txt" || hasExt t "py".toList

/-- dispatch.rs:157-160. -/
def hasPythonTools (t : Tree) : Bool :=
  has t.root "pyproject.toml" || has t.root "setup.py" || has t.root "requirements.txt" || hasExt t "py".toList

/-- manifest.rs:126-130, dispatch.rs:181-185. -/
def hasCpp (t : Tree) : Bool := has t.root "CMakeLists.txt" || has t.gen "CMakeLists.txt" || cppExts.any (hasExt t)

/-- The list in the order of the tests (manifest.rs:90-138, dispatch.rs:146-197). -/
def list (rust python cpp ros : Bool) : List Lang :=
  (if rust then [.rust] else []) ++ (if python then [.python] else []) ++ (if cpp then [.cpp] else []) ++ (if ros then [.ros2] else [])

/-- `detect_languages` (manifest.rs:89-138). -/
def detect (t : Tree) : List Lang := list (hasRust t) (hasPython t) (hasCpp t) (has t.root "package.xml")

/-- `detect_project_languages` (dispatch.rs:145-197). -/
def tools (t : Tree) : List Lang := list (hasRust t) (hasPythonTools t) (hasCpp t) (has t.root "package.xml")

/-- `detect_deploy_language` (horus_manager/src/commands/deploy.rs:620-624). -/
def deployLang (t : Tree) : Lang := (detect t).head?.getD .rust

/-- `detect_language` (deps.rs:142-164), by the file's name. -/
def langOf (f : Str) : Option Lang :=
  match ext f with
  | some e =>
    if e = "rs".toList then some .rust
    else if e = "py".toList then some .python
    else if e = "cpp".toList ∨ e = "cc".toList ∨ e = "cxx".toList then some .cpp
    else none
  | none => none

/-- A place in the project: in `src` or beside it. -/
structure Place where
  inSrc : Bool
  name : Str
deriving DecidableEq

def Tree.there (t : Tree) (p : Place) : Bool := if p.inSrc then t.src.contains p.name else t.root.contains p.name

/-- The candidates of run/mod.rs:845-852. -/
def mains : List Place :=
  [⟨false, "main.rs".toList⟩, ⟨false, "main.py".toList⟩, ⟨false, "main.cpp".toList⟩,
   ⟨true, "main.rs".toList⟩, ⟨true, "main.py".toList⟩, ⟨true, "main.cpp".toList⟩]

/-- `auto_detect_main_file` (run/mod.rs:838-893). -/
def mainFile (ign : Place → Bool) (t : Tree) : Option Place :=
  match mains.find? fun p => t.there p && !ign p with
  | some p => some p
  | none =>
    match (t.root.map fun f => (⟨false, f⟩ : Place)).filter fun p => (langOf p.name).isSome && !ign p with
    | [p] => some p
    | _ => none

/-- The language `horus run` and `horus build` take the project to be in (run/mod.rs:323). -/
def runLang (ign : Place → Bool) (t : Tree) : Option Lang := (mainFile ign t).bind fun p => langOf p.name

/-! ### What counts as what -/

/-- A file is a source file of a language by its ending. -/
def sourceOf (l : Lang) (f : Str) : Prop :=
  match l with
  | .rust => ext f = some "rs".toList
  | .python => ext f = some "py".toList
  | .cpp => ∃ e ∈ cppExts, ext f = some e
  | .ros2 => False

/-- The build files of a language, in the project's directory and in `.horus`. -/
def buildFiles (l : Lang) : List String × List String :=
  match l with
  | .rust => (["Cargo.toml"], ["Cargo.toml"])
  | .python => (["pyproject.toml", "setup.py", "requirements.txt"], ["pyproject.toml"])
  | .cpp => (["CMakeLists.txt"], ["CMakeLists.txt"])
  | .ros2 => (["package.xml"], [])

theorem mem_list (r p c o : Bool) (l : Lang) : l ∈ list r p c o ↔ (match l with | .rust => r | .python => p | .cpp => c | .ros2 => o) = true := by
  cases r <;> cases p <;> cases c <;> cases o <;> cases l <;> decide

theorem hasExt_iff (t : Tree) (e : Str) : hasExt t e = true ↔ ∃ f, (f ∈ t.root ∨ f ∈ t.src) ∧ ext f = some e := by
  simp only [hasExt, Bool.or_eq_true, List.any_eq_true, decide_eq_true_eq]
  constructor
  · rintro (⟨f, h1, h2⟩ | ⟨f, h1, h2⟩)
    · exact ⟨f, Or.inl h1, h2⟩
    · exact ⟨f, Or.inr h1, h2⟩
  · rintro ⟨f, h1 | h1, h2⟩
    · exact Or.inl ⟨f, h1, h2⟩
    · exact Or.inr ⟨f, h1, h2⟩

/-- A language is seen exactly when one of its build files is in its place or a source file lies in the project's directory or in `src`. -/
theorem detect_iff (t : Tree) (l : Lang) : l ∈ detect t ↔
    (∃ b ∈ (buildFiles l).1, b.toList ∈ t.root) ∨ (∃ b ∈ (buildFiles l).2, b.toList ∈ t.gen) ∨ ∃ f, (f ∈ t.root ∨ f ∈ t.src) ∧ sourceOf l f := by
  rw [detect, mem_list]
  cases l with
  | rust => simp only [hasRust, Bool.or_eq_true, hasExt_iff, has, List.contains_iff_mem, buildFiles, sourceOf]; simp [or_assoc]
  | python => simp only [hasPython, Bool.or_eq_true, hasExt_iff, has, List.contains_iff_mem, buildFiles, sourceOf]; simp; grind
  | cpp =>
    have : cppExts.any (hasExt t) = true ↔ ∃ f, (f ∈ t.root ∨ f ∈ t.src) ∧ sourceOf .cpp f := by
      simp only [List.any_eq_true, hasExt_iff, sourceOf]
      constructor
      · rintro ⟨e, h1, f, h2, h3⟩; exact ⟨f, h2, e, h1, h3⟩
      · rintro ⟨f, h2, e, h1, h3⟩; exact ⟨e, h1, f, h2, h3⟩
    simp only [hasCpp, Bool.or_eq_true, this, has, List.contains_iff_mem, buildFiles]; simp [or_assoc]
  | ros2 => simp [has, buildFiles, sourceOf]

/-- No language is named twice. -/
theorem detect_nodup (t : Tree) : (detect t).Nodup := by
  unfold detect
  generalize hasRust t = r, hasPython t = p, hasCpp t = c, has t.root "package.xml" = o
  cases r <;> cases p <;> cases c <;> cases o <;> decide

/-- The two lists differ only in Python, and just when the generated `.horus/pyproject.toml` is the only sign of it: `horus deploy` sees it, the
tools do not. -/
theorem tools_agree_iff (t : Tree) : tools t = detect t ↔ ¬ (hasPythonTools t = false ∧ "pyproject.toml".toList ∈ t.gen) := by
  have h : hasPython t = (hasPythonTools t || has t.gen "pyproject.toml") := by
    unfold hasPython hasPythonTools
    generalize has t.root "pyproject.toml" = a, has t.gen "pyproject.toml" = b, has t.root "setup.py" = c, has t.root "requirements.txt" = d, hasExt t "py".toList = e
    cases a <;> cases b <;> cases c <;> cases d <;> cases e <;> rfl
  have hg : ("pyproject.toml".toList ∈ t.gen) ↔ has t.gen "pyproject.toml" = true := by rw [has, List.contains_iff_mem]
  unfold tools detect
  rw [h, hg]
  generalize hasRust t = r, hasPythonTools t = p, hasCpp t = c, has t.root "package.xml" = o, has t.gen "pyproject.toml" = g
  cases r <;> cases p <;> cases c <;> cases o <;> cases g <;> decide

theorem langOf_source (f : Str) (l : Lang) (h : langOf f = some l) : sourceOf l f := by
  unfold langOf at h
  split at h
  · rename_i e he
    split at h
    · rename_i h1; subst h1; simp only [Option.some.injEq] at h; subst h; exact he
    · split at h
      · rename_i h1; subst h1; simp only [Option.some.injEq] at h; subst h; exact he
      · split at h
        · rename_i h1
          simp only [Option.some.injEq] at h; subst h
          refine ⟨e, ?_, he⟩
          rcases h1 with rfl | rfl | rfl <;> decide
        · simp at h
  · simp at h

theorem mainFile_there (ign : Place → Bool) (t : Tree) (p : Place) (h : mainFile ign t = some p) : p.name ∈ t.root ∨ p.name ∈ t.src := by
  unfold mainFile at h
  split at h
  · rename_i q hq
    simp only [Option.some.injEq] at h; subst h
    have := List.find?_some hq
    simp only [Bool.and_eq_true, Tree.there] at this
    obtain ⟨h1, _⟩ := this
    split at h1
    · right; simpa using h1
    · left; simpa using h1
  · split at h
    · rename_i q hq
      simp only [Option.some.injEq] at h; subst h
      have : q ∈ (t.root.map fun f => (⟨false, f⟩ : Place)).filter fun p => (langOf p.name).isSome && !ign p := by rw [hq]; simp
      have := (List.mem_filter.1 this).1
      obtain ⟨f, hf, rfl⟩ := List.mem_map.1 this
      exact Or.inl hf
    · simp at h

/-- The main file is never one that the manifest says to ignore. -/
theorem main_kept (ign : Place → Bool) (t : Tree) (p : Place) (h : mainFile ign t = some p) : ign p = false := by
  unfold mainFile at h
  split at h
  · rename_i q hq
    simp only [Option.some.injEq] at h; subst h
    have := List.find?_some hq
    simp only [Bool.and_eq_true, Bool.not_eq_true'] at this
    exact this.2
  · split at h
    · rename_i q hq
      simp only [Option.some.injEq] at h; subst h
      have : q ∈ (t.root.map fun f => (⟨false, f⟩ : Place)).filter fun p => (langOf p.name).isSome && !ign p := by rw [hq]; simp
      have := (List.mem_filter.1 this).2
      simp only [Bool.and_eq_true, Bool.not_eq_true'] at this
      exact this.2
    · simp at h

/-- The language a project runs in is always among those seen. -/
theorem run_detected (ign : Place → Bool) (t : Tree) (l : Lang) (h : runLang ign t = some l) : l ∈ detect t := by
  unfold runLang at h
  obtain ⟨p, hp, hl⟩ := Option.bind_eq_some_iff.1 h
  exact (detect_iff t l).2 (Or.inr (Or.inr ⟨p.name, mainFile_there ign t p hp, langOf_source _ _ hl⟩))

/-- Where the languages stand in the list. -/
def rank : Lang → Nat
  | .rust => 0
  | .python => 1
  | .cpp => 2
  | .ros2 => 3

theorem head_iff (t : Tree) (l : Lang) (h : l ∈ detect t) : (detect t).head?.getD .rust = l ↔ ∀ k ∈ detect t, rank l ≤ rank k := by
  unfold detect at *
  revert h
  generalize hasRust t = r, hasPython t = p, hasCpp t = c, has t.root "package.xml" = o
  cases r <;> cases p <;> cases c <;> cases o <;> cases l <;> decide

/-- **`horus deploy` builds the project as `horus run` does exactly when nothing of an earlier language lies about**: Rust comes first, then
Python, then C++. -/
theorem deploy_iff (ign : Place → Bool) (t : Tree) (l : Lang) (h : runLang ign t = some l) :
    deployLang t = l ↔ ∀ k ∈ detect t, rank l ≤ rank k := head_iff t l (run_detected ign t l h)

/-- In particular for a project in one language. -/
theorem deploy_partial (ign : Place → Bool) (t : Tree) (l : Lang) (h : runLang ign t = some l) (ho : ∀ k ∈ detect t, k = l) : deployLang t = l :=
  (deploy_iff ign t l h).2 fun k hk => by rw [ho k hk]; exact Nat.le_refl _

/-- A Rust project is always deployed as one. -/
theorem rust_deployed (ign : Place → Bool) (t : Tree) (h : runLang ign t = some .rust) : deployLang t = .rust :=
  (deploy_iff ign t _ h).2 fun _ _ => Nat.zero_le _

/-- A C++ project with any Python file beside it is never deployed as C++: it is not built. -/
theorem script_wins (ign : Place → Bool) (t : Tree) (h : runLang ign t = some .cpp) (f : Str) (hf : f ∈ t.root ∨ f ∈ t.src) (he : ext f = some "py".toList) :
    deployLang t ≠ .cpp := by
  intro hd
  have := (deploy_iff ign t .cpp h).1 hd .python ((detect_iff t .python).2 (Or.inr (Or.inr ⟨f, hf, he⟩)))
  exact absurd this (by decide)

/-- A project without build files whose sources all lie deeper than `src` is in no language, and is deployed as Rust. -/
theorem nested_unseen (t : Tree) (hg : t.gen = []) (hb : ∀ l : Lang, ∀ b ∈ (buildFiles l).1, b.toList ∉ t.root)
    (hs : ∀ l f, f ∈ t.root ∨ f ∈ t.src → ¬ sourceOf l f) : detect t = [] ∧ deployLang t = .rust := by
  have h0 : detect t = [] := by
    refine List.eq_nil_iff_forall_not_mem.2 fun l hl => ?_
    rcases (detect_iff _ l).1 hl with ⟨b, h1, h2⟩ | ⟨b, h1, h2⟩ | ⟨f, h1, h2⟩
    · exact hb l b h1 h2
    · rw [hg] at h2; simp at h2
    · exact hs l f h1 h2
  exact ⟨h0, by rw [deployLang, h0]; rfl⟩

def names (l : List String) : List Str := l.map String.toList

/-- `horus new --cpp`, and a script that draws plots. -/
def rover : Tree where
  root := names ["horus.toml", "src"]
  src := names ["main.cpp", "plot.py"]
  gen := names ["CMakeLists.txt"]

example : runLang (fun _ => false) rover = some .cpp ∧ deployLang rover = .python ∧ detect rover = [.python, .cpp] := by decide +kernel

/-- The same without the script is deployed as it runs. -/
example : runLang (fun _ => false) ⟨rover.root, names ["main.cpp"], rover.gen⟩ = some .cpp ∧ deployLang ⟨rover.root, names ["main.cpp"], rover.gen⟩ = .cpp := by decide +kernel

/-- A Python project with a Rust file beside it is deployed as Rust. -/
theorem python_as_rust : runLang (fun _ => false) ⟨names ["main.py", "ext.rs"], [], []⟩ = some .python ∧ deployLang ⟨names ["main.py", "ext.rs"], [], []⟩ = .rust := by decide +kernel

/-- A directory whose name ends in `.py` makes a project a Python one. -/
theorem directory_counts : detect ⟨names ["main.cpp", "old.py"], [], []⟩ = [.python, .cpp] := by decide +kernel

example : detect ⟨names ["horus.toml", "src"], names ["nodes"], []⟩ = [] := by decide +kernel

example : tools ⟨names ["horus.toml"], [], names ["pyproject.toml"]⟩ = [] ∧ detect ⟨names ["horus.toml"], [], names ["pyproject.toml"]⟩ = [.python] := by decide +kernel

/-- C291: a file whose only dot is its first character has no ending, whatever follows: `.py` is no Python file. -/
theorem hidden_none (s : Str) (h : '.' ∉ s) : ext ('.' :: s) = none := by
  have : ('.' :: s).reverse.dropWhile (· ≠ '.') = ['.'] := by
    rw [List.reverse_cons]
    have hr : '.' ∉ s.reverse := by simpa using h
    generalize s.reverse = r at hr
    induction r with
    | nil => rfl
    | cons c r ih =>
      simp only [List.mem_cons, not_or] at hr
      rw [List.cons_append, List.dropWhile_cons_of_pos (by simp [Ne.symm hr.1]), ih hr.2]
  unfold ext
  rw [this]
  rfl

/-- C291: the ending of any other file is what stands behind its last dot. -/
theorem ending (a e : Str) (ha : a ≠ []) (he : '.' ∉ e) : ext (a ++ '.' :: e) = some e := by
  have hr : '.' ∉ e.reverse := by simpa using he
  have h1 : (a ++ '.' :: e).reverse = e.reverse ++ '.' :: a.reverse := by simp
  have key : ∀ r : Str, '.' ∉ r → ∀ z, (r ++ '.' :: z).dropWhile (· ≠ '.') = '.' :: z ∧ (r ++ '.' :: z).takeWhile (· ≠ '.') = r := by
    intro r hr z
    induction r with
    | nil => simp
    | cons c r ih =>
      simp only [List.mem_cons, not_or] at hr
      have := ih hr.2
      have hc : c ≠ '.' := Ne.symm hr.1
      rw [List.cons_append, List.dropWhile_cons_of_pos (by simp [hc]), List.takeWhile_cons_of_pos (by simp [hc])]
      exact ⟨this.1, by rw [this.2]⟩
  obtain ⟨k1, k2⟩ := key e.reverse hr a.reverse
  unfold ext
  rw [h1, k1, k2]
  simp [ha]

example : ext ".rs".toList = none ∧ ext "a.b.rs".toList = some "rs".toList ∧ ext "Makefile".toList = none := by decide +kernel

end Horus.Langs
